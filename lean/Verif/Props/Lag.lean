import Verif.Model.Lag
import Mathlib.Algebra.BigOperators.Field
import Mathlib.LinearAlgebra.Matrix.Notation
import Mathlib.Tactic.Linarith
import Mathlib.Tactic.FieldSimp
import Mathlib.Tactic.NormNum
import Mathlib.Tactic.FinCases

/-! C155: the transition matrices of the simulators of time series. -/

namespace Cdmir.Lag
open BigOperators

/-- The length of a column, squared. -/
def Len {n : Nat} (A : Matrix (Fin n) (Fin n) ℝ) (i : Fin n) : ℝ := ∑ r, A r i * A r i

/-- The columns have the length one and keep their direction. -/
theorem normCols_unit {n : Nat} {A : Matrix (Fin n) (Fin n) ℝ} {i : Fin n} (h : ∃ r, A r i ≠ 0) :
    Len (normCols A) i = 1 ∧ ∃ c : ℝ, 0 < c ∧ ∀ r, A r i = c * normCols A r i := by
  have hp : 0 < ∑ q, A q i ^ 2 := by
    obtain ⟨r, hr⟩ := h
    exact Finset.sum_pos' (fun q _ => sq_nonneg _) ⟨r, Finset.mem_univ r, by positivity⟩
  have hs : 0 < Real.sqrt (∑ q, A q i ^ 2) := Real.sqrt_pos.2 hp
  refine ⟨?_, _, hs, fun r => ?_⟩
  · have : ∀ r, normCols A r i * normCols A r i = A r i ^ 2 / ∑ q, A q i ^ 2 := by
      intro r
      simp only [normCols, Matrix.of_apply]
      rw [div_mul_div_comm, Real.mul_self_sqrt hp.le, sq]
    unfold Len
    rw [Finset.sum_congr rfl fun r _ => this r, ← Finset.sum_div, div_self hp.ne']
  · simp only [normCols, Matrix.of_apply]
    field_simp

section
variable {n : Nat} {cond : Matrix (Fin n) (Fin n) ℝ → ℝ} {thresh : ℝ} {draw : Nat → Matrix (Fin n) (Fin n) ℝ}

theorem uniformLoop_ok {fuel k : Nat} {A : Matrix (Fin n) (Fin n) ℝ} {k' : Nat} (h : uniformLoop cond thresh draw fuel k = .ok (A, k')) :
    ∃ i, k ≤ i ∧ k' = i + 1 ∧ A = normCols (draw i) ∧ cond A ≤ thresh ∧ ∀ j, k ≤ j → j < i → thresh < cond (normCols (draw j)) := by
  induction fuel generalizing k with
  | zero => cases h
  | succ fuel ih =>
    rw [uniformLoop] at h
    by_cases hc : thresh < cond (normCols (draw k))
    · rw [if_pos hc] at h
      obtain ⟨i, h1, h2, h3, h4, h5⟩ := ih h
      refine ⟨i, by omega, h2, h3, h4, fun j hj hji => ?_⟩
      rcases Nat.eq_or_lt_of_le hj with rfl | hj'
      · exact hc
      · exact h5 j hj' hji
    · rw [if_neg hc] at h
      have := Except.ok.inj h
      injection this with e1 e2
      subst e1 e2
      exact ⟨k, le_rfl, rfl, rfl, not_lt.1 hc, fun j a b => absurd b (by omega)⟩

theorem lagLoop_ok {fuel m k : Nat} {ts out : List (Matrix (Fin n) (Fin n) ℝ)} (h : lagLoop cond thresh draw fuel m k ts = .ok out) :
    ∃ idx : List Nat, idx.length = m ∧ idx.Pairwise (· < ·) ∧ (∀ i ∈ idx, k ≤ i) ∧ out = ts ++ idx.map (fun i => normCols (draw i)) ∧
      (∀ i ∈ idx, cond (normCols (draw i)) ≤ thresh) ∧
      (∀ j, k ≤ j → (∃ i ∈ idx, j ≤ i) → j ∉ idx → thresh < cond (normCols (draw j))) := by
  induction m generalizing k ts with
  | zero =>
    have := Except.ok.inj h
    exact ⟨[], rfl, List.Pairwise.nil, by simp, by simp [← this], by simp, by simp⟩
  | succ m ih =>
    rw [lagLoop] at h
    rcases hu : uniformLoop cond thresh draw fuel k with e | ⟨B, k'⟩
    · rw [hu] at h; cases h
    · rw [hu] at h
      change lagLoop cond thresh draw fuel m k' (ts ++ [B]) = .ok out at h
      obtain ⟨i, h1, h2, h3, h4, h5⟩ := uniformLoop_ok hu
      obtain ⟨idx, g1, g2, g3, g4, g5, g6⟩ := ih h
      refine ⟨i :: idx, by simp [g1], ?_, ?_, ?_, ?_, ?_⟩
      · refine List.pairwise_cons.2 ⟨fun j hj => ?_, g2⟩
        have := g3 j hj
        omega
      · intro j hj
        rcases List.mem_cons.1 hj with rfl | hj
        · exact h1
        · have := g3 j hj; omega
      · rw [g4, h3]; simp
      · intro j hj
        rcases List.mem_cons.1 hj with rfl | hj
        · rw [← h3]; exact h4
        · exact g5 j hj
      · rintro j hj ⟨q, hq, hjq⟩ hn
        have hne : j ≠ i := fun e => hn (e ▸ List.mem_cons_self)
        by_cases hlt : j < i
        · exact h5 j hj hlt
        · refine g6 j (by omega) ?_ fun hc => hn (List.mem_cons_of_mem _ hc)
          rcases List.mem_cons.1 hq with rfl | hq
          · omega
          · exact ⟨q, hq, hjq⟩

/-- C155: what comes back are the first `maxLag` of the drawn matrices, with columns of length one, whose condition number is at most
the percentile of those of the first draws; the last one drawn comes first. -/
theorem c155_transitions {percentile : List ℝ → ℝ → ℝ} {maxLag niter fuel : Nat} {acceptPer : ℝ} {pre : Nat → Matrix (Fin n) (Fin n) ℝ}
    {ts : List (Matrix (Fin n) (Fin n) ℝ)} (h : lagTransitions cond percentile maxLag acceptPer niter pre draw fuel = .ok ts)
    (hd : ∀ k i, ∃ r, draw k r i ≠ 0) :
    let thresh := percentile ((List.range niter).map fun i => cond (normCols (pre i))) acceptPer
    ts.length = maxLag ∧ (∀ A ∈ ts, cond A ≤ thresh ∧ ∀ i, ∑ r, A r i * A r i = 1) ∧
      ∃ idx : List Nat, idx.Pairwise (· > ·) ∧ ts = idx.map (fun i => normCols (draw i)) ∧
        ∀ j, (∃ i ∈ idx, j ≤ i) → (j ∈ idx ↔ cond (normCols (draw j)) ≤ thresh) := by
  intro thresh
  unfold lagTransitions at h
  by_cases h1 : 0 < n
  swap
  · rw [if_pos h1] at h; cases h
  by_cases h2 : 0 < maxLag
  swap
  · rw [if_neg (not_not.2 h1), if_pos h2] at h; cases h
  rw [if_neg (not_not.2 h1), if_neg (not_not.2 h2)] at h
  rcases hl : lagLoop cond thresh draw fuel maxLag 0 [] with e | out
  · have : (lagLoop cond thresh draw fuel maxLag 0 [] >>= fun ts => pure ts.reverse : Except Err _) = .ok ts := h
    rw [hl] at this; cases this
  have h' : (lagLoop cond thresh draw fuel maxLag 0 [] >>= fun ts => pure ts.reverse : Except Err _) = .ok ts := h
  rw [hl] at h'
  have hts : ts = out.reverse := (Except.ok.inj h').symm
  obtain ⟨idx, g1, g2, g3, g4, g5, g6⟩ := lagLoop_ok hl
  rw [List.nil_append] at g4
  refine ⟨by rw [hts, g4]; simp [g1], ?_, idx.reverse, ?_, ?_, ?_⟩
  · intro A hA
    rw [hts, g4, List.mem_reverse, List.mem_map] at hA
    obtain ⟨i, hi, rfl⟩ := hA
    exact ⟨g5 i hi, fun c => (normCols_unit (hd i c)).1⟩
  · exact List.pairwise_reverse.2 g2
  · rw [hts, g4, List.map_reverse]
  · rintro j ⟨i, hi, hji⟩
    rw [List.mem_reverse] at hi ⊢
    refine ⟨fun hj => g5 j hj, fun hj => ?_⟩
    by_contra hn
    exact absurd hj (not_le.2 (g6 j (Nat.zero_le _) ⟨i, hi, hji⟩ hn))

/-- C155: without a node or without a lag an assertion fails, whatever is drawn. -/
theorem c155_asserts (percentile : List ℝ → ℝ → ℝ) {maxLag : Nat} (niter fuel : Nat) (acceptPer : ℝ) (pre : Nat → Matrix (Fin n) (Fin n) ℝ)
    (h : n = 0 ∨ maxLag = 0) : lagTransitions cond percentile maxLag acceptPer niter pre draw fuel = .error .assertion := by
  unfold lagTransitions
  by_cases h1 : 0 < n
  · rw [if_neg (not_not.2 h1), if_pos (by omega)]; rfl
  · rw [if_pos h1]; rfl

theorem uniformLoop_succeeds {fuel k i : Nat} (hk : k ≤ i) (hf : i < k + fuel) (hc : cond (normCols (draw i)) ≤ thresh) :
    ∃ A k', uniformLoop cond thresh draw fuel k = .ok (A, k') ∧ k' ≤ i + 1 := by
  induction fuel generalizing k with
  | zero => omega
  | succ fuel ih =>
    rw [uniformLoop]
    by_cases h : thresh < cond (normCols (draw k))
    · rw [if_pos h]
      refine ih ?_ (by omega)
      rcases Nat.eq_or_lt_of_le hk with rfl | h'
      · exact absurd hc (not_le.2 h)
      · exact h'
    · rw [if_neg h]
      exact ⟨_, _, rfl, by omega⟩

/-- C155: the loop ends as soon as an acceptable matrix is drawn, and if none ever is it never ends. -/
theorem c155_ends {k : Nat} : (∃ fuel A k', uniformLoop cond thresh draw fuel k = .ok (A, k')) ↔ ∃ i, k ≤ i ∧ cond (normCols (draw i)) ≤ thresh := by
  constructor
  · rintro ⟨fuel, A, k', h⟩
    obtain ⟨i, h1, -, h3, h4, -⟩ := uniformLoop_ok h
    exact ⟨i, h1, h3 ▸ h4⟩
  · rintro ⟨i, hk, hc⟩
    obtain ⟨A, k', h, -⟩ := uniformLoop_succeeds (fuel := i - k + 1) hk (by omega) hc
    exact ⟨_, A, k', h⟩

end

/-- C155, "the process is stable" is false: a matrix with columns of length one maps a vector of length one to another one, so it is no
contraction; for one node and one lag it is 1 or -1 and the series is a random walk up to sign. -/
theorem c155_stable_false {n : Nat} {A : Matrix (Fin n) (Fin n) ℝ} (hA : ∀ i, ∑ r, A r i * A r i = 1) :
    (∀ i, ∃ v : Fin n → ℝ, ∑ r, v r * v r = 1 ∧ ∑ r, A.mulVec v r * A.mulVec v r = 1 ∧ v i = 1) ∧
      ∀ h : n = 1, A ⟨0, by omega⟩ ⟨0, by omega⟩ = 1 ∨ A ⟨0, by omega⟩ ⟨0, by omega⟩ = -1 := by
  constructor
  · intro i
    refine ⟨Pi.single i 1, ?_, ?_, by simp⟩
    · simp [Pi.single_apply]
    · simpa using hA i
  · rintro rfl
    have := hA 0
    rw [Fin.sum_univ_one] at this
    exact mul_self_eq_one_iff.1 this

/-- The cosine of the angle of two columns of length one. -/
def cosine (A : Matrix (Fin 2) (Fin 2) ℝ) : ℝ := A 0 0 * A 0 1 + A 1 0 * A 1 1

/-- Columns with entries in [1, 2] have an angle whose cosine is at least 4/5. -/
theorem cosine_pos {A : Matrix (Fin 2) (Fin 2) ℝ} (h : ∀ r i, 1 ≤ A r i ∧ A r i ≤ 2) : 4 / 5 ≤ cosine (normCols A) := by
  obtain ⟨a1, a2⟩ := h 0 0
  obtain ⟨b1, b2⟩ := h 1 0
  obtain ⟨c1, c2⟩ := h 0 1
  obtain ⟨d1, d2⟩ := h 1 1
  simp only [cosine, normCols, Matrix.of_apply, Fin.sum_univ_two]
  rw [div_mul_div_comm, div_mul_div_comm, ← add_div, ← Real.sqrt_mul (by positivity)]
  have hp : 0 < (A 0 0 ^ 2 + A 1 0 ^ 2) * (A 0 1 ^ 2 + A 1 1 ^ 2) := by positivity
  rw [le_div_iff₀ (Real.sqrt_pos.2 hp)]
  have hn : 0 ≤ A 0 0 * A 0 1 + A 1 0 * A 1 1 := by positivity
  have key : (4 / 5) ^ 2 * ((A 0 0 ^ 2 + A 1 0 ^ 2) * (A 0 1 ^ 2 + A 1 1 ^ 2)) ≤ (A 0 0 * A 0 1 + A 1 0 * A 1 1) ^ 2 := by
    -- the sine is at most 3/4 of the cosine
    have e1 : 4 * (A 0 0 * A 1 1 - A 1 0 * A 0 1) ≤ 3 * (A 0 0 * A 0 1 + A 1 0 * A 1 1) := by
      nlinarith [mul_nonneg (sub_nonneg.2 a1) (sub_nonneg.2 c1), mul_nonneg (sub_nonneg.2 b1) (sub_nonneg.2 d1),
        mul_nonneg (sub_nonneg.2 a2) (sub_nonneg.2 d2), mul_nonneg (sub_nonneg.2 a2) (sub_nonneg.2 c1),
        mul_nonneg (sub_nonneg.2 b1) (sub_nonneg.2 c1), mul_nonneg (sub_nonneg.2 b1) (sub_nonneg.2 d2), mul_nonneg (sub_nonneg.2 a1) (sub_nonneg.2 d2)]
    have e2 : -(4 * (A 0 0 * A 1 1 - A 1 0 * A 0 1)) ≤ 3 * (A 0 0 * A 0 1 + A 1 0 * A 1 1) := by
      nlinarith [mul_nonneg (sub_nonneg.2 a1) (sub_nonneg.2 c1), mul_nonneg (sub_nonneg.2 b1) (sub_nonneg.2 d1),
        mul_nonneg (sub_nonneg.2 b2) (sub_nonneg.2 c2), mul_nonneg (sub_nonneg.2 a1) (sub_nonneg.2 d1),
        mul_nonneg (sub_nonneg.2 a1) (sub_nonneg.2 c2), mul_nonneg (sub_nonneg.2 b2) (sub_nonneg.2 d1), mul_nonneg (sub_nonneg.2 b1) (sub_nonneg.2 c2)]
    have e3 : (4 * (A 0 0 * A 1 1 - A 1 0 * A 0 1)) ^ 2 ≤ (3 * (A 0 0 * A 0 1 + A 1 0 * A 1 1)) ^ 2 := by
      rw [sq_le_sq, abs_of_nonneg (by positivity : 0 ≤ 3 * (A 0 0 * A 0 1 + A 1 0 * A 1 1))]
      exact abs_le.2 ⟨by linarith, e1⟩
    nlinarith
  have := Real.sqrt_le_sqrt key
  rwa [Real.sqrt_mul (by norm_num), Real.sqrt_sq (by norm_num), Real.sqrt_sq hn] at this

/-- C155, "a matrix is accepted when it is among the best `accept_per` per cent" is false: the threshold is computed from matrices with
positive entries, which are badly conditioned. For two nodes it is at least three whatever `accept_per` is, so every matrix with columns
whose cosine is at most 4/5 is accepted, even with `accept_per = 0`. -/
theorem c155_accept_false {cond : Matrix (Fin 2) (Fin 2) ℝ → ℝ} {percentile : List ℝ → ℝ → ℝ}
    (hc : ∀ A : Matrix (Fin 2) (Fin 2) ℝ, (∀ i, ∑ r, A r i * A r i = 1) → |cosine A| < 1 → cond A = Real.sqrt ((1 + |cosine A|) / (1 - |cosine A|)))
    (hs : ∀ A : Matrix (Fin 2) (Fin 2) ℝ, (∀ i, ∑ r, A r i * A r i = 1) → |cosine A| = 1 → 3 ≤ cond A)
    (hper : ∀ l p (m : ℝ), l ≠ [] → (∀ x ∈ l, m ≤ x) → m ≤ percentile l p) {niter : Nat} (h0 : 0 < niter) {pre : Nat → Matrix (Fin 2) (Fin 2) ℝ}
    (hpre : ∀ k r i, 1 ≤ pre k r i ∧ pre k r i ≤ 2) (p : ℝ) {A : Matrix (Fin 2) (Fin 2) ℝ} (hA : ∀ i, ∑ r, A r i * A r i = 1) (hcos : |cosine A| ≤ 4 / 5) :
    cond A ≤ percentile ((List.range niter).map fun i => cond (normCols (pre i))) p := by
  have mono : ∀ x y : ℝ, 0 ≤ x → x ≤ y → y < 1 → (1 + x) / (1 - x) ≤ (1 + y) / (1 - y) := by
    intro x y h1 h2 h3
    rw [div_le_div_iff₀ (by linarith) (by linarith)]
    nlinarith
  have h3 : Real.sqrt ((1 + 4 / 5) / (1 - 4 / 5)) = 3 := by
    rw [show ((1 + 4 / 5) / (1 - 4 / 5) : ℝ) = 3 ^ 2 by norm_num, Real.sqrt_sq (by norm_num)]
  have hA3 : cond A ≤ 3 := by
    rw [hc A hA (by linarith), ← h3]
    exact Real.sqrt_le_sqrt (mono _ _ (abs_nonneg _) hcos (by norm_num))
  refine hA3.trans (hper _ p 3 (by simp; omega) fun x hx => ?_)
  obtain ⟨k, -, rfl⟩ := List.mem_map.1 hx
  have hu : ∀ i, ∑ r, normCols (pre k) r i * normCols (pre k) r i = 1 := fun i =>
    (normCols_unit ⟨0, by have := (hpre k 0 i).1; linarith⟩).1
  have hk := cosine_pos (hpre k)
  have hle : |cosine (normCols (pre k))| ≤ 1 := by
    have e0 := hu 0
    have e1 := hu 1
    rw [Fin.sum_univ_two] at e0 e1
    unfold cosine
    rw [abs_le]
    constructor
    · nlinarith [sq_nonneg (normCols (pre k) 0 0 + normCols (pre k) 0 1), sq_nonneg (normCols (pre k) 1 0 + normCols (pre k) 1 1)]
    · nlinarith [sq_nonneg (normCols (pre k) 0 0 - normCols (pre k) 0 1), sq_nonneg (normCols (pre k) 1 0 - normCols (pre k) 1 1)]
  rcases lt_or_eq_of_le hle with hlt | heq
  · rw [hc _ hu hlt, ← h3]
    exact Real.sqrt_le_sqrt (mono _ _ (by norm_num) (hk.trans (le_abs_self _)) hlt)
  · exact hs _ hu heq

/-- A drawn matrix with the columns (3, 4) and (1, 0). -/
example : normCols (!![3, 1; 4, 0] : Matrix (Fin 2) (Fin 2) ℝ) 0 0 = 3 / 5 ∧ normCols (!![3, 1; 4, 0] : Matrix (Fin 2) (Fin 2) ℝ) 1 0 = 4 / 5 ∧
    normCols (!![3, 1; 4, 0] : Matrix (Fin 2) (Fin 2) ℝ) 0 1 = 1 := by
  have h5 : Real.sqrt 25 = 5 := by rw [show (25 : ℝ) = 5 ^ 2 by norm_num, Real.sqrt_sq (by norm_num)]
  refine ⟨?_, ?_, ?_⟩ <;> simp [normCols, Fin.sum_univ_two] <;> norm_num [h5]

/-- One node: each of the two lags gets 1 or -1, in the order opposite to that of the draws. -/
example : lagTransitions (n := 1) (fun _ => 1) (fun _ _ => 1) 2 25 3 (fun _ _ _ => 1) (fun k _ _ => if k = 0 then -1 else 1) 1 =
    .ok [fun _ _ => 1, fun _ _ => -1] := by
  have h1 : normCols (n := 1) (fun _ _ => -1) = fun _ _ => -1 := by funext r i; simp [normCols]
  have h2 : normCols (n := 1) (fun _ _ => 1) = fun _ _ => 1 := by funext r i; simp [normCols]
  simp [lagTransitions, lagLoop, uniformLoop, h1, h2, pure, Except.pure, bind, Except.bind]
  rfl

end Cdmir.Lag
