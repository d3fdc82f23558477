import Verif.Lemmas.SHP
import Mathlib.Analysis.SpecialFunctions.Log.Basic
import Mathlib.Analysis.SpecialFunctions.Exp
import Mathlib.Algebra.Order.BigOperators.Group.Finset
import Mathlib.Algebra.BigOperators.Field
import Mathlib.Tactic.Positivity
import Mathlib.Tactic.FieldSimp

/-! The fit of one event type ends, over the reals: proof devices. The likelihood is bounded above and rises by at least 0.0085 in
every turn but the last. -/

namespace Cdmir.SHP
open BigOperators

variable {m n : Nat}

/-- What the tables of real events satisfy: counts are not negative, every type occurs, no event is after the last of its sequence,
the total time and the parameters are positive. -/
structure Valid (D : Data ℝ m n) : Prop where
  nonneg : ∀ t j, 0 ≤ D.X t j
  occurs : ∀ j, 0 < ∑ t, D.X t j
  last : ∀ t, D.time t ≤ D.last (D.seq t)
  T : 0 < D.T
  decay : 0 < D.decay
  dt : ∀ dt, D.dt = some dt → 0 < dt

/-- SHP.py L115-117: the kernel. -/
noncomputable def kernel (D : Data ℝ m n) : ℝ → ℝ := fun t => Real.exp (-D.decay * t)

theorem reached_pos {D : Data ℝ m n} {kappa : ℝ → ℝ} {ind : Fin m} {fuel : Nat} {next : Fin m} {p : Fin m × ℝ}
    (h : p ∈ reached D kappa ind fuel next) : 0 < p.2 := by
  induction fuel generalizing next with
  | zero => simp [reached] at h
  | succ fuel ih =>
    unfold reached at h
    split at h
    · simp only at h
      split at h
      · simp at h
      · rename_i q
        rcases List.mem_cons.1 h with rfl | h
        · exact lt_of_lt_of_le (by norm_num) (not_lt.1 q)
        · split at h
          · exact ih h
          · simp at h
    · simp at h

theorem influence_nonneg {D : Data ℝ m n} (v : ∀ t j, 0 ≤ D.X t j) (kappa : ℝ → ℝ) (t : Fin m) (j : Fin n) : 0 ≤ influence D kappa t j := by
  unfold influence
  refine List.sum_nonneg fun x hx => ?_
  obtain ⟨ind, -, rfl⟩ := List.mem_map.1 hx
  refine List.sum_nonneg fun y hy => ?_
  obtain ⟨p, hp, rfl⟩ := List.mem_map.1 hy
  split
  · exact mul_nonneg (v _ _) (reached_pos hp).le
  · exact le_rfl

theorem integral_nonneg {D : Data ℝ m n} (v : Valid D) (j : Fin n) : 0 ≤ integral D (kernel D) j := by
  unfold integral
  refine Finset.sum_nonneg fun t _ => mul_nonneg (v.nonneg _ _) (div_nonneg (sub_nonneg.2 ?_) v.decay.le)
  unfold kernel
  refine Real.exp_le_one_iff.2 ?_
  have := v.last t
  have := v.decay
  nlinarith

section
variable {D : Data ℝ m n} (v : Valid D) {S : Fin m → Fin n → ℝ} (hS : ∀ t j, 0 ≤ S t j)
include v hS

omit v in
theorem rate_pos {alpha : Fin n → ℝ} (ha : ∀ j, 0 ≤ alpha j) {mu : ℝ} (hm : 0 < mu) (t : Fin m) : 0 < rate S alpha mu t := by
  unfold rate
  have : 0 ≤ ∑ j, S t j * alpha j := Finset.sum_nonneg fun j _ => mul_nonneg (hS t j) (ha j)
  linarith

theorem muStep_pos (i : Fin n) {alpha : Fin n → ℝ} (ha : ∀ j, 0 ≤ alpha j) {mu : ℝ} (hm : 0 < mu) : 0 < muStep D S i alpha mu := by
  unfold muStep
  refine div_pos ?_ v.T
  obtain ⟨t, -, ht⟩ := Finset.exists_lt_of_sum_lt (s := Finset.univ) (f := fun _ : Fin m => (0 : ℝ)) (by simpa using v.occurs i)
  refine Finset.sum_pos' (fun t _ => mul_nonneg (div_nonneg hm.le (rate_pos hS ha hm t).le) (v.nonneg _ _)) ⟨t, Finset.mem_univ t, ?_⟩
  exact mul_pos (div_pos hm (rate_pos hS ha hm t)) ht

theorem alphaStep_nonneg {I : Fin n → ℝ} (hI : ∀ j, 0 ≤ I j) (i : Fin n) (pa : List (Fin n)) {dt : ℝ} (hdt : 0 < dt)
    {alpha : Fin n → ℝ} (ha : ∀ j, 0 ≤ alpha j) {mu : ℝ} (hm : 0 < mu) (j : Fin n) : 0 ≤ alphaStep D S I i pa dt alpha mu j := by
  unfold alphaStep
  split
  · simp only
    split
    · exact le_rfl
    · refine div_nonneg (Finset.sum_nonneg fun t _ => mul_nonneg (div_nonneg (mul_nonneg (ha j) (hS t j)) (rate_pos hS ha hm t).le)
        (v.nonneg _ _)) (mul_nonneg (hI j) hdt.le)
  · exact ha j

/-- The likelihood is bounded above. -/
theorem logLik_le (i : Fin n) : ∃ B, ∀ alpha : Fin n → ℝ, (∀ j, 0 ≤ alpha j) → ∀ mu, 0 < mu → logLik D Real.log S i alpha mu ≤ B := by
  have hc : ∀ j, 0 < ∑ t, 1 / D.decay * D.X t j := fun j => by
    rw [← Finset.mul_sum]
    exact mul_pos (by have := v.decay; positivity) (v.occurs j)
  have hb : ∀ j, 0 ≤ ∑ t, D.X t i * S t j := fun j => Finset.sum_nonneg fun t _ => mul_nonneg (v.nonneg _ _) (hS t j)
  have hT := v.T
  have hx : 0 ≤ ∑ t, D.X t i := (v.occurs i).le
  obtain ⟨θ, hθ, h1, h2⟩ : ∃ θ : ℝ, 0 < θ ∧ (∀ j, ∑ t, D.X t i * S t j ≤ θ * ∑ t, 1 / D.decay * D.X t j) ∧ ∑ t, D.X t i ≤ θ * D.T := by
    refine ⟨1 + (∑ j, (∑ t, D.X t i * S t j) / ∑ t, 1 / D.decay * D.X t j) + (∑ t, D.X t i) / D.T, ?_, fun j => ?_, ?_⟩
    · have : 0 ≤ ∑ j, (∑ t, D.X t i * S t j) / ∑ t, 1 / D.decay * D.X t j := Finset.sum_nonneg fun j _ => div_nonneg (hb j) (hc j).le
      have : 0 ≤ (∑ t, D.X t i) / D.T := div_nonneg hx hT.le
      linarith
    · have k1 : (∑ t, D.X t i * S t j) / (∑ t, 1 / D.decay * D.X t j) ≤ ∑ j, (∑ t, D.X t i * S t j) / ∑ t, 1 / D.decay * D.X t j :=
        Finset.single_le_sum (f := fun j => (∑ t, D.X t i * S t j) / ∑ t, 1 / D.decay * D.X t j)
          (fun j _ => div_nonneg (hb j) (hc j).le) (Finset.mem_univ j)
      have k2 : 0 ≤ (∑ t, D.X t i) / D.T := div_nonneg hx hT.le
      rw [div_le_iff₀ (hc j)] at k1
      refine k1.trans (mul_le_mul_of_nonneg_right ?_ (hc j).le)
      linarith
    · have k1 : 0 ≤ ∑ j, (∑ t, D.X t i * S t j) / ∑ t, 1 / D.decay * D.X t j := Finset.sum_nonneg fun j _ => div_nonneg (hb j) (hc j).le
      have k2 : (∑ t, D.X t i) = (∑ t, D.X t i) / D.T * D.T := by field_simp
      nlinarith
  refine ⟨∑ t, D.X t i * (Real.log θ - 1), fun alpha ha mu hm => ?_⟩
  have hlog : ∀ t, D.X t i * Real.log (rate S alpha mu t) ≤ D.X t i * (rate S alpha mu t / θ) + D.X t i * (Real.log θ - 1) := by
    intro t
    rw [← mul_add]
    refine mul_le_mul_of_nonneg_left ?_ (v.nonneg _ _)
    have hr := rate_pos hS ha hm t
    have := Real.log_le_sub_one_of_pos (div_pos hr hθ)
    rw [Real.log_div hr.ne' hθ.ne'] at this
    linarith
  have hsum : ∑ t, D.X t i * (rate S alpha mu t / θ) ≤ (∑ j, (∑ t, 1 / D.decay * D.X t j) * alpha j) + mu * D.T := by
    have e : ∑ t, D.X t i * (rate S alpha mu t / θ) = (∑ j, (∑ t, D.X t i * S t j) / θ * alpha j) + mu * ((∑ t, D.X t i) / θ) := by
      unfold rate
      simp only [add_div, mul_add, Finset.sum_add_distrib, Finset.sum_div, Finset.mul_sum, Finset.sum_mul]
      congr 1
      · rw [Finset.sum_comm]
        exact Finset.sum_congr rfl fun j _ => Finset.sum_congr rfl fun t _ => by ring
      · exact Finset.sum_congr rfl fun t _ => by ring
    rw [e]
    refine add_le_add (Finset.sum_le_sum fun j _ => mul_le_mul_of_nonneg_right ?_ (ha j)) (mul_le_mul_of_nonneg_left ?_ hm.le)
    · rw [div_le_iff₀ hθ, mul_comm]; exact h1 j
    · rw [div_le_iff₀ hθ, mul_comm]; exact h2
  have := Finset.sum_le_sum fun t (_ : t ∈ Finset.univ) => hlog t
  rw [Finset.sum_add_distrib] at this
  unfold logLik
  linarith

/-- The first likelihood is bounded below. -/
theorem logLik_ge (i : Fin n) {alpha : Fin n → ℝ} (ha : ∀ j, 0 ≤ alpha j ∧ alpha j ≤ 1) :
    -((∑ j, ∑ t, 1 / D.decay * D.X t j) + D.T) ≤ logLik D Real.log S i alpha 1 := by
  unfold logLik
  have hc : ∀ j, 0 ≤ ∑ t, 1 / D.decay * D.X t j := fun j => Finset.sum_nonneg fun t _ =>
    mul_nonneg (by have := v.decay; positivity) (v.nonneg _ _)
  have h1 : (∑ j, (∑ t, 1 / D.decay * D.X t j) * alpha j) ≤ ∑ j, ∑ t, 1 / D.decay * D.X t j :=
    Finset.sum_le_sum fun j _ => mul_le_of_le_one_right (hc j) (ha j).2
  have h2 : 0 ≤ ∑ t, D.X t i * Real.log (rate S alpha 1 t) := Finset.sum_nonneg fun t _ => by
    refine mul_nonneg (v.nonneg _ _) (Real.log_nonneg ?_)
    unfold rate
    have : 0 ≤ ∑ j, S t j * alpha j := Finset.sum_nonneg fun j _ => mul_nonneg (hS t j) (ha j).1
    linarith
  linarith

/-- The loop from a likelihood on. -/
theorem fitLoop_total {I : Fin n → ℝ} (hI : ∀ j, 0 ≤ I j) {dt : ℝ} (hdt : D.dt = some dt) (i : Fin n) (pa : List (Fin n)) {B : ℝ}
    (hB : ∀ alpha : Fin n → ℝ, (∀ j, 0 ≤ alpha j) → ∀ mu, 0 < mu → logLik D Real.log S i alpha mu ≤ B) {fuel : Nat} {L : ℝ}
    (hL : L ≤ B) (hf : B - L < fuel * (17 / 2000)) {alpha : Fin n → ℝ} (ha : ∀ j, 0 ≤ alpha j) {mu : ℝ} (hm : 0 < mu) :
    ∃ f, fitLoop D Real.log S I i pa fuel (some L) alpha mu = .ok f ∧ (∀ j, 0 ≤ f.alpha j) ∧ 0 < f.mu ∧
      f.lik = logLik D Real.log S i f.alpha f.mu ∧ ∀ j, j ∉ pa → f.alpha j = alpha j := by
  induction fuel generalizing L alpha mu with
  | zero => exfalso; simp at hf; linarith
  | succ fuel ih =>
    unfold fitLoop
    simp only
    split
    · exact ⟨_, rfl, ha, hm, rfl, fun _ _ => rfl⟩
    · rename_i q
      simp only [decide_eq_true_eq, not_lt] at q
      rw [hdt]
      simp only
      obtain ⟨f, e, k1, k2, k3, k4⟩ := ih (L := logLik D Real.log S i alpha mu) (hB alpha ha mu hm) (by push_cast at hf; linarith)
        (alphaStep_nonneg v hS hI i pa (v.dt dt hdt) ha hm) (muStep_pos v hS i ha hm)
      refine ⟨f, e, k1, k2, k3, fun j hj => ?_⟩
      rw [k4 j hj]
      unfold alphaStep
      rw [if_neg hj]

end

/-- One number of turns suffices for all fits from coefficients between 0 and 1. -/
theorem fit_total {D : Data ℝ m n} (v : Valid D) {dt : ℝ} (hdt : D.dt = some dt) :
    ∃ N, ∀ fuel ≥ N, ∀ i pa (a : Fin n → ℝ), (∀ j, 0 ≤ a j ∧ a j ≤ 1) → ∃ f, fit D Real.log (kernel D) fuel i pa a = .ok f ∧
      (∀ j, 0 ≤ f.alpha j) ∧ 0 < f.mu ∧ f.lik = logLik D Real.log (influence D (kernel D)) i f.alpha f.mu ∧
      ∀ j, j ∉ pa → f.alpha j = a j := by
  have hS := influence_nonneg v.nonneg (kernel D)
  choose B hB using logLik_le v hS
  obtain ⟨N, hN⟩ := exists_nat_gt (((∑ i, |B i|) + ((∑ j, ∑ t, 1 / D.decay * D.X t j) + D.T)) / (17 / 2000))
  refine ⟨N + 1, fun fuel hf i pa a ha => ?_⟩
  obtain ⟨fuel, rfl⟩ : ∃ k, fuel = k + 1 := ⟨fuel - 1, by omega⟩
  have hf : N ≤ fuel := by omega
  unfold fit fitLoop
  simp only [Bool.false_eq_true, if_false]
  rw [hdt]
  simp only
  have ha0 : ∀ j, 0 ≤ a j := fun j => (ha j).1
  have hge := logLik_ge v hS i ha
  have hBi : B i ≤ ∑ i, |B i| := (le_abs_self _).trans (Finset.single_le_sum (f := fun i => |B i|) (fun _ _ => abs_nonneg _) (Finset.mem_univ i))
  rw [div_lt_iff₀ (by norm_num)] at hN
  have hf' : (N : ℝ) ≤ fuel := by exact_mod_cast hf
  obtain ⟨f, e, k1, k2, k3, k4⟩ := fitLoop_total v hS (integral_nonneg v) hdt i pa (hB i) (fuel := fuel)
    (L := logLik D Real.log (influence D (kernel D)) i a 1) (hB i a ha0 1 one_pos) (by linarith)
    (alphaStep_nonneg v hS (integral_nonneg v) i pa (v.dt dt hdt) ha0 one_pos) (muStep_pos v hS i ha0 one_pos)
  refine ⟨f, e, k1, k2, k3, fun j hj => ?_⟩
  rw [k4 j hj]
  unfold alphaStep
  rw [if_neg hj]

end Cdmir.SHP
