import Verif.Lemmas.SHPFit
import Mathlib.Analysis.Convex.SpecificFunctions.Basic
import Mathlib.Analysis.Convex.Jensen
import Mathlib.Analysis.Complex.ExponentialBounds

/-! C152: the expectation-maximisation steps of SHP.py. -/

namespace Cdmir
open BigOperators SHP

namespace SHPEm

/-! ### The method in general: counts `x`, features `s`, costs `c`, weights `p` -/

section
variable {ι τ : Type} [Fintype ι] [Fintype τ]

theorem xlogx {x y : ℝ} (hx : 0 ≤ x) (hy : 0 < y) : 0 ≤ x * Real.log (x / y) - x + y := by
  rcases hx.eq_or_lt with rfl | hx
  · simp [hy.le]
  · have h := Real.log_le_sub_one_of_pos (div_pos hy hx)
    have e : Real.log (x / y) = -Real.log (y / x) := by rw [← Real.log_inv, inv_div]
    rw [e]
    have h2 : x * Real.log (y / x) ≤ x * (y / x - 1) := mul_le_mul_of_nonneg_left h hx.le
    have h3 : x * (y / x - 1) = y - x := by field_simp
    linarith

theorem em_up {x : τ → ℝ} {s : τ → ι → ℝ} {c p p' : ι → ℝ} (hx : ∀ t, 0 ≤ x t) (hs : ∀ t k, 0 ≤ s t k) (hp : ∀ k, 0 ≤ p k) (hp' : ∀ k, 0 ≤ p' k)
    (hc : ∀ k, 0 ≤ c k) (hr : ∀ t, 0 < ∑ k, s t k * p k) (he : ∀ k, c k * p' k = ∑ t, x t * (p k * s t k / ∑ k, s t k * p k)) :
    -∑ k, c k * p k + ∑ t, x t * Real.log (∑ k, s t k * p k) ≤ -∑ k, c k * p' k + ∑ t, x t * Real.log (∑ k, s t k * p' k) := by
  set r : τ → ℝ := fun t => ∑ k, s t k * p k with hrdef
  have hq0 : ∀ t k, 0 ≤ p k * s t k / r t := fun t k => div_nonneg (mul_nonneg (hp k) (hs t k)) (hr t).le
  have hq1 : ∀ t, ∑ k, p k * s t k / r t = 1 := by
    intro t
    rw [← Finset.sum_div, div_eq_one_iff_eq (hr t).ne']
    exact Finset.sum_congr rfl fun k _ => mul_comm _ _
  have hpos : ∀ t k, 0 < x t → 0 < p k * s t k / r t → 0 < p' k := by
    intro t k ht hk
    have h1 : 0 < c k * p' k := by
      rw [he]
      refine lt_of_lt_of_le (mul_pos ht hk) (Finset.single_le_sum (f := fun t => x t * (p k * s t k / r t)) (fun t _ => mul_nonneg (hx t) (hq0 t k)) (Finset.mem_univ t))
    exact (pos_iff_pos_of_mul_pos h1).1 (lt_of_le_of_ne (hc k) fun h => by rw [← h] at h1; simp at h1)
  -- Jensen's inequality for one row
  have hj : ∀ t, x t * (Real.log (r t) + ∑ k, p k * s t k / r t * Real.log (p' k / p k)) ≤ x t * Real.log (∑ k, s t k * p' k) := by
    intro t
    rcases (hx t).eq_or_lt with h0 | h0
    · rw [← h0]; simp
    refine mul_le_mul_of_nonneg_left ?_ (hx t)
    set I := Finset.univ.filter fun k => 0 < p k * s t k / r t with hI
    have hpk : ∀ k ∈ I, 0 < p k := by
      intro k hk
      have h1 := (Finset.mem_filter.1 hk).2
      rcases (hp k).eq_or_lt with h | h
      · rw [← h] at h1; simp at h1
      · exact h
    have off : ∀ k, k ∉ I → p k * s t k / r t = 0 := by
      intro k hk
      by_contra h
      exact hk (Finset.mem_filter.2 ⟨Finset.mem_univ _, lt_of_le_of_ne (hq0 t k) (Ne.symm h)⟩)
    have hw : ∑ k ∈ I, p k * s t k / r t = 1 := by
      rw [← hq1 t]
      exact Finset.sum_subset (Finset.subset_univ _) fun k _ hk => off k hk
    have hjen := strictConcaveOn_log_Ioi.concaveOn.le_map_sum (t := I) (w := fun k => p k * s t k / r t) (p := fun k => p' k / p k)
      (fun k _ => hq0 t k) hw (fun k hk => div_pos (hpos t k h0 (Finset.mem_filter.1 hk).2) (hpk k hk))
    simp only [smul_eq_mul] at hjen
    have hA : ∑ k, p k * s t k / r t * Real.log (p' k / p k) = ∑ k ∈ I, p k * s t k / r t * Real.log (p' k / p k) :=
      (Finset.sum_subset (Finset.subset_univ _) fun k _ hk => by rw [off k hk, zero_mul]).symm
    have hB : ∑ k ∈ I, p k * s t k / r t * (p' k / p k) ≤ (∑ k, s t k * p' k) / r t := by
      rw [Finset.sum_div]
      refine le_trans (Finset.sum_le_sum fun k hk => ?_) (Finset.sum_le_sum_of_subset_of_nonneg (Finset.subset_univ I) fun k _ _ => div_nonneg (mul_nonneg (hs t k) (hp' k)) (hr t).le)
      have := (hpk k hk).ne'
      have := (hr t).ne'
      apply le_of_eq
      field_simp
    have hBpos : 0 < ∑ k ∈ I, p k * s t k / r t * (p' k / p k) := by
      have hne : I.Nonempty := by
        by_contra h
        rw [Finset.not_nonempty_iff_eq_empty.1 h] at hw
        simp at hw
      exact Finset.sum_pos (fun k hk => mul_pos (Finset.mem_filter.1 hk).2 (div_pos (hpos t k h0 (Finset.mem_filter.1 hk).2) (hpk k hk))) hne
    have hlog := hjen.trans (Real.log_le_log hBpos hB)
    have hnum : 0 < ∑ k, s t k * p' k := by
      have := lt_of_lt_of_le hBpos hB
      by_contra h
      exact absurd (div_nonpos_of_nonpos_of_nonneg (not_lt.1 h) (hr t).le) (not_le.2 this)
    rw [Real.log_div hnum.ne' (hr t).ne'] at hlog
    rw [hA]
    linarith
  have hsum := Finset.sum_le_sum fun t (_ : t ∈ Finset.univ) => hj t
  -- exchange the sums
  have hswap : ∑ t, x t * (Real.log (r t) + ∑ k, p k * s t k / r t * Real.log (p' k / p k)) =
      ∑ t, x t * Real.log (r t) + ∑ k, c k * p' k * Real.log (p' k / p k) := by
    have : ∑ k, c k * p' k * Real.log (p' k / p k) = ∑ t, x t * ∑ k, p k * s t k / r t * Real.log (p' k / p k) := by
      rw [Finset.sum_congr rfl fun k _ => by rw [he k, Finset.sum_mul], Finset.sum_comm]
      refine Finset.sum_congr rfl fun t _ => ?_
      rw [Finset.mul_sum]
      exact Finset.sum_congr rfl fun k _ => by ring
    rw [this, ← Finset.sum_add_distrib]
    exact Finset.sum_congr rfl fun t _ => by ring
  rw [hswap] at hsum
  have hk : ∀ k, 0 ≤ c k * p' k * Real.log (p' k / p k) - c k * p' k + c k * p k := by
    intro k
    rcases (hp k).eq_or_lt with h | h
    · have : c k * p' k = 0 := by rw [he k, ← h]; simp
      rw [this, ← h]
      simp
    · have := mul_nonneg (hc k) (xlogx (hp' k) h)
      linarith
  have := Finset.sum_nonneg fun k (_ : k ∈ Finset.univ) => hk k
  rw [Finset.sum_add_distrib, Finset.sum_sub_distrib] at this
  linarith

/-- A point with positive weights where each weight pays for what it explains is the best of all. -/
theorem em_best {x : τ → ℝ} {s : τ → ι → ℝ} {c p p' : ι → ℝ} (hx : ∀ t, 0 ≤ x t) (hr : ∀ t, 0 < ∑ k, s t k * p k) (hr' : ∀ t, 0 < ∑ k, s t k * p' k)
    (he : ∀ k, p k ≠ 0 ∨ p' k ≠ 0 → c k = ∑ t, x t * (s t k / ∑ k, s t k * p k)) :
    -∑ k, c k * p' k + ∑ t, x t * Real.log (∑ k, s t k * p' k) ≤ -∑ k, c k * p k + ∑ t, x t * Real.log (∑ k, s t k * p k) := by
  have key : ∀ q : ι → ℝ, (∀ k, q k ≠ 0 → p k ≠ 0 ∨ p' k ≠ 0) → ∑ k, c k * q k = ∑ t, x t * ((∑ k, s t k * q k) / ∑ k, s t k * p k) := by
    intro q hq
    have hk : ∀ k, c k * q k = ∑ t, x t * (s t k / ∑ k, s t k * p k) * q k := by
      intro k
      by_cases h : q k = 0
      · simp [h]
      · rw [he k (hq k h), Finset.sum_mul]
    rw [Finset.sum_congr rfl fun k _ => hk k, Finset.sum_comm]
    refine Finset.sum_congr rfl fun t _ => ?_
    rw [Finset.sum_div, Finset.mul_sum]
    exact Finset.sum_congr rfl fun k _ => by ring
  have h1 : ∀ t, x t * Real.log (∑ k, s t k * p' k) ≤ x t * (Real.log (∑ k, s t k * p k) + ((∑ k, s t k * p' k) / ∑ k, s t k * p k) - 1) := by
    intro t
    refine mul_le_mul_of_nonneg_left ?_ (hx t)
    have := Real.log_le_sub_one_of_pos (div_pos (hr' t) (hr t))
    rw [Real.log_div (hr' t).ne' (hr t).ne'] at this
    linarith
  have h2 := Finset.sum_le_sum fun t (_ : t ∈ Finset.univ) => h1 t
  have h3 : ∑ t, x t * (Real.log (∑ k, s t k * p k) + ((∑ k, s t k * p' k) / ∑ k, s t k * p k) - 1) =
      ∑ t, x t * Real.log (∑ k, s t k * p k) + ∑ k, c k * p' k - ∑ t, x t := by
    rw [key p' fun k h => Or.inr h, ← Finset.sum_add_distrib, ← Finset.sum_sub_distrib]
    exact Finset.sum_congr rfl fun t _ => by ring
  have h4 : ∑ k, c k * p k = ∑ t, x t := by
    rw [key p fun k h => Or.inl h]
    exact Finset.sum_congr rfl fun t _ => by rw [div_self (hr t).ne', mul_one]
  linarith

end

/-! ### The steps of SHP.py -/

section
variable {m n : Nat}

/-- The base rate with the coefficients. -/
def weights (alpha : Fin n → ℝ) (mu : ℝ) : Option (Fin n) → ℝ
  | none => mu
  | some j => alpha j

/-- The constant one with the influences. -/
def features (S : Fin m → Fin n → ℝ) (t : Fin m) : Option (Fin n) → ℝ
  | none => 1
  | some j => S t j

/-- The likelihood of the counts `x`: their mean values are `mu` plus the coefficients times the features, over the time `T` and
with `cost j` the integral of the kernel of event type `j`. -/
noncomputable def Spec.lik (x : Fin m → ℝ) (S : Fin m → Fin n → ℝ) (T : ℝ) (cost : Fin n → ℝ) (alpha : Fin n → ℝ) (mu : ℝ) : ℝ :=
  (∑ t, x t * Real.log (mu + ∑ j, alpha j * S t j)) - (T * mu + ∑ j, cost j * alpha j)

theorem rate_eq (S : Fin m → Fin n → ℝ) (alpha : Fin n → ℝ) (mu : ℝ) (t : Fin m) : rate S alpha mu t = ∑ k, features S t k * weights alpha mu k := by
  rw [Fintype.sum_option]
  simp only [features, weights, rate, one_mul]
  ring

theorem rate_eq' (S : Fin m → Fin n → ℝ) (alpha : Fin n → ℝ) (mu : ℝ) (t : Fin m) : rate S alpha mu t = mu + ∑ j, alpha j * S t j := by
  unfold rate
  rw [add_comm]
  simp only [mul_comm]

theorem lik_eq (x : Fin m → ℝ) (S : Fin m → Fin n → ℝ) (T : ℝ) (cost alpha : Fin n → ℝ) (mu : ℝ) :
    Spec.lik x S T cost alpha mu = -∑ k, weights cost T k * weights alpha mu k + ∑ t, x t * Real.log (∑ k, features S t k * weights alpha mu k) := by
  unfold Spec.lik
  rw [Fintype.sum_option]
  simp only [← rate_eq, ← rate_eq']
  simp only [weights]
  ring

theorem logLik_eq (D : Data ℝ m n) (S : Fin m → Fin n → ℝ) (i : Fin n) (alpha : Fin n → ℝ) (mu : ℝ) :
    logLik D Real.log S i alpha mu = Spec.lik (fun t => D.X t i) S D.T (fun j => (∑ t, D.X t j) / D.decay) alpha mu := by
  unfold Spec.lik logLik
  simp only [← rate_eq', ← Finset.mul_sum]
  rw [neg_add_eq_sub, mul_comm mu, add_comm (D.T * mu)]
  congr 2
  exact Finset.sum_congr rfl fun j _ => by rw [one_div, inv_mul_eq_div]

/-- C152: one turn of the loop never lowers the likelihood in which each parent costs what the turn divides by: the integral of its
kernel up to the end of the sequence times the time interval. -/
theorem c152_monotone {D : Data ℝ m n} (v : Valid D) {dt : ℝ} (hdt : D.dt = some dt) (i : Fin n) {pa : List (Fin n)} {alpha : Fin n → ℝ}
    (ha : ∀ j, 0 ≤ alpha j) (hz : ∀ j ∉ pa, alpha j = 0) (hI : ∀ j ∈ pa, integral D (kernel D) j ≠ 0) {mu : ℝ} (hm : 0 < mu) :
    let S := influence D (kernel D)
    let cost := fun j => (∑ t, D.X t j * (1 - Real.exp (-D.decay * (D.last (D.seq t) - D.time t))) / D.decay) * dt
    Spec.lik (fun t => D.X t i) S D.T cost alpha mu ≤
      Spec.lik (fun t => D.X t i) S D.T cost (alphaStep D S (integral D (kernel D)) i pa dt alpha mu) (muStep D S i alpha mu) := by
  intro S cost
  have hS : ∀ t j, 0 ≤ S t j := influence_nonneg v.nonneg _
  have hcost : ∀ j, cost j = integral D (kernel D) j * dt := by
    intro j
    simp only [cost, integral, kernel]
    congr 1
    exact Finset.sum_congr rfl fun t _ => by ring
  have hd := v.dt dt hdt
  rw [lik_eq, lik_eq]
  refine em_up (fun t => v.nonneg t i) ?_ ?_ ?_ ?_ (fun t => ?_) ?_
  · rintro t (_ | j)
    · exact zero_le_one
    · exact hS t j
  · rintro (_ | j)
    · exact hm.le
    · exact ha j
  · rintro (_ | j)
    · exact (muStep_pos v hS i ha hm).le
    · exact alphaStep_nonneg v hS (integral_nonneg v) i pa hd ha hm j
  · rintro (_ | j)
    · exact v.T.le
    · change 0 ≤ cost j
      rw [hcost]
      exact mul_nonneg (integral_nonneg v j) hd.le
  · rw [← rate_eq]
    exact rate_pos hS ha hm t
  · rintro (_ | j)
    · simp only [← rate_eq]
      change D.T * muStep D S i alpha mu = ∑ t, D.X t i * (mu * 1 / rate S alpha mu t)
      unfold muStep
      rw [mul_div_cancel₀ _ v.T.ne']
      exact Finset.sum_congr rfl fun t _ => by ring
    · simp only [← rate_eq]
      change cost j * alphaStep D S (integral D (kernel D)) i pa dt alpha mu j = ∑ t, D.X t i * (alpha j * S t j / rate S alpha mu t)
      rw [hcost]
      unfold alphaStep
      by_cases hj : j ∈ pa
      · have h0 : integral D (kernel D) j * dt ≠ 0 := mul_ne_zero (hI j hj) hd.ne'
        simp only [if_pos hj, if_neg h0]
        rw [mul_div_cancel₀ _ h0]
        exact Finset.sum_congr rfl fun t _ => by ring
      · rw [if_neg hj, hz j hj]
        simp

/-- C152: a point with positive coefficients that a turn leaves as it is has the highest such likelihood of all the nonnegative
coefficients of the same parents and all positive base rates. -/
theorem c152_fixed {D : Data ℝ m n} (v : Valid D) {dt : ℝ} (i : Fin n) {pa : List (Fin n)} {alpha : Fin n → ℝ}
    (ha : ∀ j ∈ pa, 0 < alpha j) (hz : ∀ j ∉ pa, alpha j = 0) {mu : ℝ} (hm : 0 < mu)
    (hmu : muStep D (influence D (kernel D)) i alpha mu = mu)
    (hal : ∀ j ∈ pa, alphaStep D (influence D (kernel D)) (integral D (kernel D)) i pa dt alpha mu j = alpha j)
    {beta : Fin n → ℝ} (hb : ∀ j, 0 ≤ beta j) (hbz : ∀ j ∉ pa, beta j = 0) {nu : ℝ} (hn : 0 < nu) :
    let S := influence D (kernel D)
    let cost := fun j => (∑ t, D.X t j * (1 - Real.exp (-D.decay * (D.last (D.seq t) - D.time t))) / D.decay) * dt
    Spec.lik (fun t => D.X t i) S D.T cost beta nu ≤ Spec.lik (fun t => D.X t i) S D.T cost alpha mu := by
  intro S cost
  have hS : ∀ t j, 0 ≤ S t j := influence_nonneg v.nonneg _
  have hcost : ∀ j, cost j = integral D (kernel D) j * dt := by
    intro j
    simp only [cost, integral, kernel]
    congr 1
    exact Finset.sum_congr rfl fun t _ => by ring
  have ha' : ∀ j, 0 ≤ alpha j := fun j => by
    by_cases h : j ∈ pa
    · exact (ha j h).le
    · rw [hz j h]
  rw [lik_eq, lik_eq]
  refine em_best (fun t => v.nonneg t i) (fun t => ?_) (fun t => ?_) ?_
  · rw [← rate_eq]
    exact rate_pos hS ha' hm t
  · rw [← rate_eq]
    exact rate_pos hS hb hn t
  · rintro (_ | j) hj
    · simp only [← rate_eq]
      change D.T = ∑ t, D.X t i * (1 / rate S alpha mu t)
      have h1 : (∑ t, mu / rate S alpha mu t * D.X t i) / D.T = mu := hmu
      rw [div_eq_iff v.T.ne'] at h1
      have h2 : ∑ t, mu / rate S alpha mu t * D.X t i = mu * ∑ t, D.X t i * (1 / rate S alpha mu t) := by
        rw [Finset.mul_sum]
        exact Finset.sum_congr rfl fun t _ => by ring
      rw [h2] at h1
      exact (mul_left_cancel₀ hm.ne' h1).symm
    · simp only [← rate_eq]
      change cost j = ∑ t, D.X t i * (S t j / rate S alpha mu t)
      have hp : j ∈ pa := by
        by_contra h
        rcases hj with hj | hj
        · exact hj (hz j h)
        · exact hj (hbz j h)
      have h1 := hal j hp
      unfold alphaStep at h1
      simp only [if_pos hp] at h1
      rw [hcost]
      split at h1
      · exact absurd h1 (ha j hp).ne
      · rename_i h0
        rw [div_eq_iff h0] at h1
        have h2 : ∑ t, alpha j * influence D (kernel D) t j / rate (influence D (kernel D)) alpha mu t * D.X t i =
            alpha j * ∑ t, D.X t i * (S t j / rate S alpha mu t) := by
          rw [Finset.mul_sum]
          exact Finset.sum_congr rfl fun t _ => by ring
        rw [h2] at h1
        exact (mul_left_cancel₀ (ha j hp).ne' h1).symm

/-- What a turn of the loop goes on with (SHP.py L189-202). -/
noncomputable def next (D : Data ℝ m n) (log : ℝ → ℝ) (S : Fin m → Fin n → ℝ) (I : Fin n → ℝ) (i : Fin n) (pa : List (Fin n)) (fuel : Nat) (L : ℝ)
    (alpha : Fin n → ℝ) (mu : ℝ) : Except Err (Fit ℝ n) :=
  match D.dt with
  | none => if pa = [] then fitLoop D log S I i pa fuel (some L) alpha (muStep D S i alpha mu) else throw .type
  | some dt => fitLoop D log S I i pa fuel (some L) (alphaStep D S I i pa dt alpha mu) (muStep D S i alpha mu)

theorem fitLoop_first (D : Data ℝ m n) (log : ℝ → ℝ) (S : Fin m → Fin n → ℝ) (I : Fin n → ℝ) (i : Fin n) (pa : List (Fin n)) (fuel : Nat)
    (alpha : Fin n → ℝ) (mu : ℝ) :
    fitLoop D log S I i pa (fuel + 1) none alpha mu = next D log S I i pa fuel (logLik D log S i alpha mu) alpha mu := by
  simp only [fitLoop, Bool.false_eq_true, if_false]
  unfold next
  cases D.dt <;> simp

theorem fitLoop_later (D : Data ℝ m n) (log : ℝ → ℝ) (S : Fin m → Fin n → ℝ) (I : Fin n → ℝ) (i : Fin n) (pa : List (Fin n)) (fuel : Nat)
    (L : ℝ) (alpha : Fin n → ℝ) (mu : ℝ) :
    fitLoop D log S I i pa (fuel + 1) (some L) alpha mu =
      if logLik D log S i alpha mu - L < 17 / 2000 then .ok ⟨logLik D log S i alpha mu, alpha, mu⟩
      else next D log S I i pa fuel (logLik D log S i alpha mu) alpha mu := by
  simp only [fitLoop, decide_eq_true_eq]
  unfold next
  cases D.dt <;> simp [pure, Except.pure]

theorem ite_either {β : Type} {c : Prop} [Decidable c] {x y z : β} (h : (if c then x else y) = z) : x = z ∨ y = z := by
  split at h
  · exact Or.inl h
  · exact Or.inr h

theorem fitLoop_cases {D : Data ℝ m n} {S : Fin m → Fin n → ℝ} {I : Fin n → ℝ} {i : Fin n} {pa : List (Fin n)} {fuel : Nat} {Li : Option ℝ}
    {alpha : Fin n → ℝ} {mu : ℝ} {f : Fit ℝ n} (h : fitLoop D Real.log S I i pa (fuel + 1) Li alpha mu = .ok f) :
    f = ⟨logLik D Real.log S i alpha mu, alpha, mu⟩ ∨
      (D.dt = none ∧ fitLoop D Real.log S I i pa fuel (some (logLik D Real.log S i alpha mu)) alpha (muStep D S i alpha mu) = .ok f) ∨
      ∃ dt, D.dt = some dt ∧ fitLoop D Real.log S I i pa fuel (some (logLik D Real.log S i alpha mu)) (alphaStep D S I i pa dt alpha mu)
        (muStep D S i alpha mu) = .ok f := by
  unfold fitLoop at h
  dsimp only at h
  rcases ite_either h with h | h
  · cases h
    exact Or.inl rfl
  · rcases hd : D.dt with _ | dt
    · rw [hd] at h
      dsimp only at h
      split at h
      · exact Or.inr (Or.inl ⟨rfl, h⟩)
      · cases h
    · rw [hd] at h
      exact Or.inr (Or.inr ⟨dt, rfl, h⟩)

theorem fitLoop_value {D : Data ℝ m n} {S : Fin m → Fin n → ℝ} {I : Fin n → ℝ} {i : Fin n} {pa : List (Fin n)} {fuel : Nat} {Li : Option ℝ}
    {alpha : Fin n → ℝ} {mu : ℝ} {f : Fit ℝ n} (h : fitLoop D Real.log S I i pa fuel Li alpha mu = .ok f) :
    f.lik = logLik D Real.log S i f.alpha f.mu := by
  induction fuel generalizing Li alpha mu with
  | zero => simp [fitLoop, throw, throwThe, MonadExceptOf.throw] at h
  | succ fuel ih =>
    rcases fitLoop_cases h with rfl | ⟨-, h⟩ | ⟨dt, -, h⟩
    · rfl
    · exact ih h
    · exact ih h

/-- C152: the likelihood a fit reports is that of the coefficients it reports, each parent costing its number of events over the
decay. -/
theorem c152_value {D : Data ℝ m n} {kappa : ℝ → ℝ} {i : Fin n} {pa : List (Fin n)} {fuel : Nat} {alpha : Fin n → ℝ} {f : Fit ℝ n}
    (h : fit D Real.log kappa fuel i pa alpha = .ok f) :
    f.lik = Spec.lik (fun t => D.X t i) (influence D kappa) D.T (fun j => (∑ t, D.X t j) / D.decay) f.alpha f.mu := by
  rw [fitLoop_value h, logLik_eq]

theorem lik_congr (x : Fin m → ℝ) (S : Fin m → Fin n → ℝ) (T : ℝ) {c c' alpha : Fin n → ℝ} (mu : ℝ) (h : ∀ j, alpha j ≠ 0 → c j = c' j) :
    Spec.lik x S T c alpha mu = Spec.lik x S T c' alpha mu := by
  unfold Spec.lik
  congr 2
  refine Finset.sum_congr rfl fun j _ => ?_
  by_cases hj : alpha j = 0
  · simp [hj]
  · rw [h j hj]

theorem alphaStep_zero {D : Data ℝ m n} {S : Fin m → Fin n → ℝ} {I : Fin n → ℝ} {i : Fin n} {pa : List (Fin n)} {dt : ℝ} {alpha : Fin n → ℝ}
    {mu : ℝ} (hz : ∀ j ∉ pa, alpha j = 0) {j : Fin n} (hj : j ∉ pa) : alphaStep D S I i pa dt alpha mu j = 0 := by
  unfold alphaStep
  rw [if_neg hj, hz j hj]

theorem fitLoop_up {D : Data ℝ m n} (v : Valid D) {dt : ℝ} (hdt : D.dt = some dt) {i : Fin n} {pa : List (Fin n)}
    (hc : ∀ j ∈ pa, (∑ t, D.X t j * (1 - Real.exp (-D.decay * (D.last (D.seq t) - D.time t)))) * dt = ∑ t, D.X t j)
    {fuel : Nat} {Li : Option ℝ} {alpha : Fin n → ℝ} (ha : ∀ j, 0 ≤ alpha j) (hz : ∀ j ∉ pa, alpha j = 0) {mu : ℝ} (hm : 0 < mu) {f : Fit ℝ n}
    (h : fitLoop D Real.log (influence D (kernel D)) (integral D (kernel D)) i pa fuel Li alpha mu = .ok f) :
    logLik D Real.log (influence D (kernel D)) i alpha mu ≤ f.lik := by
  have hS : ∀ t j, 0 ≤ influence D (kernel D) t j := influence_nonneg v.nonneg _
  induction fuel generalizing Li alpha mu with
  | zero => simp [fitLoop, throw, throwThe, MonadExceptOf.throw] at h
  | succ fuel ih =>
    rcases fitLoop_cases h with rfl | ⟨h, -⟩ | ⟨dt', h', h⟩
    · exact le_rfl
    · rw [hdt] at h
      cases h
    · rw [hdt] at h'
      cases h'
      refine le_trans ?_ (ih (fun j => alphaStep_nonneg v hS (integral_nonneg v) i pa (v.dt dt hdt) ha hm j) (fun j hj => alphaStep_zero hz hj)
        (muStep_pos v hS i ha hm) h)
      have hI : ∀ j, integral D (kernel D) j = (∑ t, D.X t j * (1 - Real.exp (-D.decay * (D.last (D.seq t) - D.time t)))) / D.decay := by
        intro j
        unfold integral kernel
        rw [Finset.sum_div]
        exact Finset.sum_congr rfl fun t _ => by ring
      have hne : ∀ j ∈ pa, integral D (kernel D) j ≠ 0 := by
        intro j hj h0
        rw [hI, div_eq_zero_iff] at h0
        rcases h0 with h0 | h0
        · have := hc j hj
          rw [h0, zero_mul] at this
          exact absurd this (v.occurs j).ne
        · exact v.decay.ne' h0
      have hmono := c152_monotone v hdt i ha hz hne hm
      simp only at hmono
      have hcc : ∀ j ∈ pa, (∑ t, D.X t j * (1 - Real.exp (-D.decay * (D.last (D.seq t) - D.time t))) / D.decay) * dt = (∑ t, D.X t j) / D.decay := by
        intro j hj
        rw [← Finset.sum_div, div_mul_eq_mul_div, hc j hj]
      rw [logLik_eq, logLik_eq]
      rw [lik_congr _ _ _ mu (fun j hj => hcc j (by by_contra k; exact hj (hz j k))),
        lik_congr _ _ _ _ (fun j hj => hcc j (by by_contra k; exact hj (alphaStep_zero hz k)))] at hmono
      exact hmono

/-- C152, part: no fit returns a lower likelihood than the one it starts from. Proved only where the integral of the kernels of the
parents' events up to the end, times the time interval, is what the likelihood charges, their number over the decay. What is missing is
false of the code, see `c152_false`. Full statement: the same without `hc`. -/
theorem c152_up_partial {D : Data ℝ m n} (v : Valid D) {dt : ℝ} (hdt : D.dt = some dt) {i : Fin n} {pa : List (Fin n)}
    (hc : ∀ j ∈ pa, (∑ t, D.X t j * (1 - Real.exp (-D.decay * (D.last (D.seq t) - D.time t)))) * dt = ∑ t, D.X t j)
    {fuel : Nat} {alpha : Fin n → ℝ} (ha : ∀ j, 0 ≤ alpha j) (hz : ∀ j ∉ pa, alpha j = 0) {f : Fit ℝ n}
    (h : fit D Real.log (fun t => Real.exp (-D.decay * t)) fuel i pa alpha = .ok f) :
    Spec.lik (fun t => D.X t i) (influence D fun t => Real.exp (-D.decay * t)) D.T (fun j => (∑ t, D.X t j) / D.decay) alpha 1 ≤ f.lik := by
  rw [← logLik_eq]
  exact fitLoop_up v hdt hc ha hz one_pos h

/-- C152: without parents the fit returns the number of events over the time, which has the highest likelihood of all base rates. -/
theorem c152_empty {D : Data ℝ m n} (v : Valid D) (kappa : ℝ → ℝ) (i : Fin n) {fuel : Nat} (hf : 3 ≤ fuel) :
    ∃ f, fit D Real.log kappa fuel i [] (fun _ => 0) = .ok f ∧ f.mu = (∑ t, D.X t i) / D.T ∧ (∀ j, f.alpha j = 0) ∧
      ∀ mu > 0, (∑ t, D.X t i) * Real.log mu - D.T * mu ≤ f.lik := by
  have hr : ∀ mu t, rate (influence D kappa) (fun _ => 0) mu t = mu := fun mu t => by simp [rate]
  have hL : ∀ mu, logLik D Real.log (influence D kappa) i (fun _ => 0) mu = (∑ t, D.X t i) * Real.log mu - D.T * mu := by
    intro mu
    unfold logLik
    simp only [hr, ← Finset.sum_mul, mul_zero, Finset.sum_const_zero, zero_add]
    ring
  have hM : ∀ mu, mu ≠ 0 → muStep D (influence D kappa) i (fun _ => 0) mu = (∑ t, D.X t i) / D.T := by
    intro mu h
    unfold muStep
    simp only [hr, div_self h, one_mul]
  have hA : ∀ dt mu, alphaStep D (influence D kappa) (integral D kappa) i [] dt (fun _ => 0) mu = fun _ => 0 := by
    intro dt mu
    funext j
    simp [alphaStep]
  have hN : ∀ k L mu, next D Real.log (influence D kappa) (integral D kappa) i [] k L (fun _ => 0) mu =
      fitLoop D Real.log (influence D kappa) (integral D kappa) i [] k (some L) (fun _ => 0) (muStep D (influence D kappa) i (fun _ => 0) mu) := by
    intro k L mu
    unfold next
    cases D.dt with
    | none => rfl
    | some dt => simp only [hA]
  have hx := v.occurs i
  have hT := v.T
  set h := (∑ t, D.X t i) / D.T with hh
  have hpos : 0 < h := div_pos hx hT
  obtain ⟨k, rfl⟩ : ∃ k, fuel = k + 3 := ⟨fuel - 3, by omega⟩
  refine ⟨⟨logLik D Real.log (influence D kappa) i (fun _ => 0) h, fun _ => 0, h⟩, ?_, rfl, fun _ => rfl, fun mu hmu => ?_⟩
  · unfold fit
    rw [fitLoop_first, hN, hM 1 one_ne_zero, fitLoop_later]
    split
    · rfl
    · rw [hN, hM h hpos.ne', fitLoop_later, if_pos (by rw [sub_self]; norm_num)]
  · simp only [hL]
    have h1 := Real.log_le_sub_one_of_pos (div_pos hmu hpos)
    rw [Real.log_div hmu.ne' hpos.ne'] at h1
    have h2 := mul_le_mul_of_nonneg_left h1 hx.le
    have h3 : (∑ t, D.X t i) * (mu / h - 1) = D.T * mu - ∑ t, D.X t i := by
      rw [hh]
      field_simp
    have h4 : D.T * h = ∑ t, D.X t i := by rw [hh, mul_div_cancel₀ _ hT.ne']
    rw [h3] at h2
    linarith

/-- Two events, of the first type and then, after time one, of the second. -/
noncomputable def two (dt : ℝ) : Data ℝ 2 2 :=
  ⟨fun _ => 0, fun t => t.val, fun t j => if t = j then 1 else 0, fun _ => 1, 1, 1, some dt⟩

theorem two_valid {dt : ℝ} (h : 0 < dt) : Valid (two dt) := by
  constructor
  · intro t j; simp only [two]; split <;> norm_num
  · intro j; simp [two]
  · intro t; fin_cases t <;> simp [two]
  · simp [two]
  · simp [two]
  · intro d hd
    simp only [two, Option.some.injEq] at hd
    exact hd ▸ h

/-- C152, its hypotheses: with the time interval 1/(1 - exp(-1)) the two costs agree. -/
example : let D := two (1 / (1 - Real.exp (-1)))
    Valid D ∧ (∀ j ∈ [(0 : Fin 2)], (∑ t, D.X t j * (1 - Real.exp (-D.decay * (D.last (D.seq t) - D.time t)))) * (1 / (1 - Real.exp (-1))) = ∑ t, D.X t j) ∧
      ∀ j ∈ [(0 : Fin 2)], integral D (kernel D) j ≠ 0 := by
  have h : 0 < 1 - Real.exp (-1) := sub_pos.2 (Real.exp_zero ▸ Real.exp_lt_exp.2 (by norm_num))
  refine ⟨two_valid (by positivity), fun j hj => ?_, fun j hj => ?_⟩
  · rw [List.mem_singleton.1 hj]
    simp [two, h.ne']
  · rw [List.mem_singleton.1 hj]
    simp [two, integral, kernel, h.ne']

theorem two_influence (dt : ℝ) (t : Fin 2) : influence (two dt) (fun t => Real.exp (-(two dt).decay * t)) t 0 = if t = 0 then 1 else Real.exp (-1) := by
  have he : ¬Real.exp (-1) < 1 / 10000 := by
    have : Real.exp 1 < 3 := lt_trans Real.exp_one_lt_d9 (by norm_num)
    rw [Real.exp_neg, not_lt, ← one_div]
    exact one_div_le_one_div_of_le (Real.exp_pos _) (by linarith)
  have h10 : ¬(1 : ℝ) < 1 / 10000 := by norm_num
  simp only [one_div] at he h10
  fin_cases t <;> simp [influence, reached, two, List.finRange_succ, he, h10]

/-- A fixed point with a parent: with the time interval exp(-1)/(1 - exp(-1)) a turn leaves the coefficient 1 and the base rate
1 - exp(-1) as they are. -/
example : let e := Real.exp (-1)
    let dt := e / (1 - e)
    let S := influence (two dt) (kernel (two dt))
    0 < 1 - e ∧ muStep (two dt) S 1 ![1, 0] (1 - e) = 1 - e ∧
      ∀ j ∈ [(0 : Fin 2)], alphaStep (two dt) S (integral (two dt) (kernel (two dt))) 1 [0] dt ![1, 0] (1 - e) j = ![(1 : ℝ), 0] j := by
  intro e dt S
  have h : 0 < 1 - e := sub_pos.2 (Real.exp_zero ▸ Real.exp_lt_exp.2 (by norm_num))
  have he : 0 < e := Real.exp_pos _
  have hS : S 1 0 = e := by
    have := two_influence dt 1
    rw [if_neg (by decide)] at this
    exact this
  have hI : integral (two dt) (kernel (two dt)) 0 = 1 - e := by simp [integral, two, kernel, e]
  have hr : ∀ t, rate S ![1, 0] (1 - e) t = S t 0 + (1 - e) := fun t => by simp [rate, Fin.sum_univ_two]
  have hl : (1 - e) * dt = e := by simp only [dt]; field_simp
  refine ⟨h, ?_, fun j hj => ?_⟩
  · unfold muStep
    simp only [hr]
    simp [two, hS]
  · rw [List.mem_singleton.1 hj]
    simp only [alphaStep, hr, hI, hl]
    rw [if_pos (by simp), if_neg he.ne']
    simp [two, hS, he.ne']

/-- Without parents one event in time one gives the base rate one. -/
example : ∃ f, fit (two 1) Real.log (fun t => Real.exp (-t)) 3 1 [] (fun _ => 0) = .ok f ∧ f.mu = 1 := by
  obtain ⟨f, h1, h2, -⟩ := c152_empty (two_valid one_pos) (fun t => Real.exp (-t)) 1 (le_refl 3)
  exact ⟨f, h1, by rw [h2]; simp [two]⟩

/-- C152, "no fit returns a lower likelihood than the one it starts from" is false: the coefficients are divided by the time interval,
which the likelihood does not know of. With two events and a small time interval the first turn lowers the likelihood by any amount,
the loop takes this for the end, and the result is returned. -/
theorem c152_false (B : ℝ) : ∃ dt : ℝ, 0 < dt ∧ Valid (two dt) ∧ ∀ fuel ≥ 2,
    ∃ f, fit (two dt) Real.log (fun t => Real.exp (-(two dt).decay * t)) fuel 1 [0] ![1 / 2, 0] = .ok f ∧
      f.lik < Spec.lik (fun t => (two dt).X t 1) (influence (two dt) fun t => Real.exp (-(two dt).decay * t)) (two dt).T
        (fun j => (∑ t, (two dt).X t j) / (two dt).decay) ![1 / 2, 0] 1 - B := by
  have he3 : 1 / 3 < Real.exp (-1) := by
    have : Real.exp 1 < 3 := lt_trans Real.exp_one_lt_d9 (by norm_num)
    rw [Real.exp_neg, ← one_div]
    exact one_div_lt_one_div_of_lt (Real.exp_pos _) this
  have he1 : Real.exp (-1) < 1 := Real.exp_zero ▸ Real.exp_lt_exp.2 (by norm_num)
  set e := Real.exp (-1) with hedef
  -- the time interval
  obtain ⟨dt, hdt0, hdtB⟩ : ∃ dt : ℝ, 0 < dt ∧ |B| + 1 < 1 / (9 * dt) := by
    refine ⟨1 / (9 * (|B| + 2)), by positivity, ?_⟩
    have : 1 / (9 * (1 / (9 * (|B| + 2)))) = |B| + 2 := by field_simp
    rw [this]
    linarith
  refine ⟨dt, hdt0, two_valid hdt0, fun fuel hf => ?_⟩
  obtain ⟨k, rfl⟩ : ∃ k, fuel = k + 2 := ⟨fuel - 2, by omega⟩
  set S := influence (two dt) (fun t => Real.exp (-(two dt).decay * t)) with hS
  set I := integral (two dt) (fun t => Real.exp (-(two dt).decay * t)) with hI
  have hS0 : S 0 0 = 1 := by rw [hS, two_influence, if_pos rfl]
  have hS1 : S 1 0 = e := by rw [hS, two_influence, if_neg (by decide)]
  have hI0 : I 0 = 1 - e := by
    rw [hI, hedef]
    simp [integral, two]
  have hrate : ∀ a mu t, rate S ![a, 0] mu t = S t 0 * a + mu := by
    intro a mu t
    simp [rate, Fin.sum_univ_two]
  have hlik : ∀ a mu, logLik (two dt) Real.log S 1 ![a, 0] mu = -(a + mu) + Real.log (e * a + mu) := by
    intro a mu
    unfold logLik
    simp only [hrate]
    simp [two, Fin.sum_univ_two, hS1]
  have hmu : ∀ a mu, muStep (two dt) S 1 ![a, 0] mu = mu / (e * a + mu) := by
    intro a mu
    unfold muStep
    simp only [hrate]
    simp [two, hS1]
  have hlow : (1 - e) * dt ≠ 0 := mul_ne_zero (by linarith) hdt0.ne'
  have hal : ∀ a mu, alphaStep (two dt) S I 1 [0] dt ![a, 0] mu = ![a * e / (e * a + mu) / ((1 - e) * dt), 0] := by
    intro a mu
    funext j
    fin_cases j
    · simp only [alphaStep, hrate, hI0, Fin.zero_eta]
      rw [if_pos (by simp), if_neg hlow]
      simp [two, hS1]
    · simp [alphaStep]
  set r := e * (1 / 2) + 1 with hr
  have hr0 : 0 < r := by positivity
  have hr2 : r < 3 / 2 := by rw [hr]; linarith
  set a' := 1 / 2 * e / r / ((1 - e) * dt) with ha'
  set mu' := 1 / r with hmu'
  have h1e : 0 < 1 - e := by linarith
  have ha0 : 0 < a' := by positivity
  have hm0 : 0 < mu' := by positivity
  have hL0 : -(3 / 2) ≤ logLik (two dt) Real.log S 1 ![1 / 2, 0] 1 := by
    rw [hlik]
    have : 0 ≤ Real.log (e * (1 / 2) + 1) := Real.log_nonneg (by linarith)
    linarith
  have hL1 : logLik (two dt) Real.log S 1 ![a', 0] mu' ≤ -1 - 1 / (9 * dt) := by
    rw [hlik]
    have h1 := Real.log_le_sub_one_of_pos (show 0 < e * a' + mu' by positivity)
    have h2 : (1 - e) * a' = 1 / 2 * e / r / dt := by rw [ha']; field_simp
    have h3 : 1 / (9 * dt) ≤ 1 / 2 * e / r / dt := by
      rw [div_div, div_le_div_iff₀ (by positivity) (by positivity)]
      nlinarith
    nlinarith
  have hB := le_abs_self B
  have hB0 := abs_nonneg B
  refine ⟨⟨logLik (two dt) Real.log S 1 ![a', 0] mu', ![a', 0], mu'⟩, ?_, ?_⟩
  · unfold fit
    rw [fitLoop_first]
    unfold next
    have hd : (two dt).dt = some dt := rfl
    rw [hd]
    simp only [← hS, ← hI, hal, hmu]
    rw [fitLoop_later, if_pos]
    linarith
  · simp only [← logLik_eq]
    linarith

end

end SHPEm
end Cdmir
