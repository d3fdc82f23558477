import Verif.Props.FisherPC
import Verif.Props.FisherSem
import Mathlib.Probability.Independence.Basic
import Mathlib.Probability.Independence.Integration
import Verif.Props.Dag2Cpdag
import Mathlib.LinearAlgebra.Matrix.Notation

/-!
Examples for C115-C118: the chain 1 -> 2 -> 3 with all coefficients and error variances one.
-/

namespace Cdmir.Fisher
open Cdmir.Spec Matrix

/-- The covariances of `X0 = E0`, `X1 = X0 + E1`, `X2 = X1 + E2`. -/
def exCov : Matrix (Fin 3) (Fin 3) ℝ := !![1, 1, 1; 1, 2, 2; 1, 2, 3]

/-- The chain. -/
def exR (i j : Fin 3) : Prop := (i = 0 ∧ j = 1) ∨ (i = 1 ∧ j = 2)

theorem exLinear : LinearModel exR exCov := by
  refine ⟨!![0, 0, 0; 1, 0, 0; 0, 1, 0], fun _ => 1, fun v u h => ?_, fun _ => one_pos, ?_⟩
  · fin_cases v <;> fin_cases u <;> simp [exR] at h ⊢
  · ext i j
    fin_cases i <;> fin_cases j <;> simp [exCov, Matrix.mul_apply, Fin.sum_univ_three, Matrix.one_apply] <;> norm_num

theorem exAcyclic : Acyclic exR := by
  have : ∀ i j, Relation.TransGen exR i j → i < j := by
    intro i j h
    induction h with
    | single h => rcases h with ⟨rfl, rfl⟩ | ⟨rfl, rfl⟩ <;> decide
    | tail _ h ih => refine lt_trans ih ?_; rcases h with ⟨rfl, rfl⟩ | ⟨rfl, rfl⟩ <;> decide
  exact fun i h => lt_irrefl _ (this i i h)

theorem exDSep {Z : Fin 3 → Prop} (h : Z 1) : DSep exR 0 2 Z := by
  rintro p ⟨hn, hh, hl, ha⟩
  match p, hn, hh, hl, ha with
  | [a], _, hh, hl, _ => simp at hh hl; exact absurd (hh.symm.trans hl) (by decide)
  | [a, b], _, hh, hl, ha =>
    simp at hh hl
    subst hh; subst hl
    rcases ha 0 2 ⟨[], [], rfl⟩ with h | h <;> simp [exR] at h
  | a :: b :: c :: l, hn, hh, hl, ha =>
    simp at hh
    subst hh
    have hb : b = 1 := by
      rcases ha 0 b ⟨[], c :: l, rfl⟩ with h | h <;> simp [exR] at h
      exact h
    subst hb
    exact ⟨0, 1, c, ⟨[], l, rfl⟩, Or.inl ⟨fun hc => by have := hc.2; simp only [exR] at this; simp at this; subst this; simp at hn, h⟩⟩

theorem exFaithful : Faithful exR exCov := by
  rintro x y Z hxy hx hy ⟨c, ⟨h1, h2, h3⟩, h4⟩
  have hcy : c y = 0 := by
    by_contra h
    rcases h2 y h with h | h
    · exact hxy h.symm
    · exact hy h
  have hm : ∀ i, exCov.mulVec c i = exCov i 0 * c 0 + exCov i 1 * c 1 + exCov i 2 * c 2 := fun i => by
    simp [mulVec, dotProduct, Fin.sum_univ_three]
  have hw : ∀ w, w ≠ x → (Z w ∧ exCov.mulVec c w = 0) ∨ c w = 0 := fun w hw => by
    by_cases h : c w = 0
    · exact Or.inr h
    · have := (h2 w h).resolve_left hw
      exact Or.inl ⟨this, h3 w this⟩
  simp only [hm] at hw h4
  fin_cases x <;> fin_cases y <;> simp [exCov] at hxy h1 hcy h4 hw
  · exfalso; rcases hw 2 (by decide) with ⟨_, h⟩ | h <;> (try simp at h) <;> linarith
  · rcases hw 1 (by decide) with ⟨h, _⟩ | h
    · exact exDSep h
    · linarith
  · exfalso; rcases hw 2 (by decide) with ⟨_, h⟩ | h <;> (try simp at h) <;> linarith
  · exfalso; rcases hw 0 (by decide) with ⟨_, h⟩ | h <;> (try simp at h) <;> linarith
  · rcases hw 1 (by decide) with ⟨h, _⟩ | h
    · exact (exDSep h).symm
    · linarith
  · exfalso; rcases hw 0 (by decide) with ⟨_, h⟩ | h <;> (try simp at h) <;> linarith

theorem exPosDef : exCov.PosDef := exLinear.posDef exAcyclic

example := c115_symm (N := 10) (posDef_symm exPosDef) 0 2 [1] [1] (List.Perm.refl _)
example := c115_history (names := ["a", "b", "c"]) (N := 4) (fun i r => (i.val : ℝ) ^ r.val + r.val ^ 2)
  [.test "a" "b" none, .test "b" "a" (some ["c"])] "a" "b" (some ["c"])
example := c115_units (N := 4) (by decide) (fun (i : Fin 3) r => (i.val : ℝ) ^ r.val) (Equiv.swap 0 3) (fun i => i.val + 1) (fun i => -i.val)
  (fun i => by positivity)
example := c115_signs (N := 10) exCov (fun i => if i = 1 then -1 else 1) (fun i => by by_cases h : i = 1 <;> simp [h]) 0 1 none
example := c115_columns (N := 4) (fun (i : Fin 3) r => (i.val : ℝ) ^ r.val) 0 2 [1]

theorem exNodup : ((0 : Fin 3) :: 2 :: [1]).Nodup := by decide

example := c116_partial_correlation (N := 10) exNodup ((corrOf_posDef exPosDef).submatrix (List.nodup_iff_injective_get.1 exNodup))
example := c116_range (N := 10) exNodup (exPosDef.submatrix (List.nodup_iff_injective_get.1 exNodup))
example := c116_repeated (corr := exCov) (N := 10) (i := 0) (j := 1) (zs := [0]) (by decide)
example := c117_zero (N := 10) exPosDef exNodup
example := c117_dsep (N := 10) exAcyclic exLinear exNodup (exDSep (by simp))
example := c117_faithful (N := 10) exAcyclic exLinear exFaithful (i := 0) (j := 2) (zs := []) (by decide)

/-- Two variables with correlation one half, and with correlation three quarters. -/
theorem exTwo {s : ℝ} (hs : 0 ≤ s) (h1 : s < 1) : ∃ q, fisherzFromCorr !![1, s; s, 1] 10 0 1 (some []) = .ok (.val q, .fin s) := by
  have hP : (!![1, s; s, 1] : Matrix (Fin 2) (Fin 2) ℝ).PosDef := by
    refine posDef_iff.2 ⟨by ext i j; fin_cases i <;> fin_cases j <;> rfl, fun t ht => ?_⟩
    have e : dotProduct t ((!![1, s; s, 1] : Matrix (Fin 2) (Fin 2) ℝ).mulVec t) = (t 0 + s * t 1) ^ 2 + (1 - s ^ 2) * t 1 ^ 2 := by
      simp [dotProduct, mulVec, Fin.sum_univ_two]; ring
    rw [e]
    have hs2 : 0 < 1 - s ^ 2 := by nlinarith
    by_cases h : t 1 = 0
    · have h0 : t 0 ≠ 0 := fun h0 => ht (by ext i; fin_cases i <;> assumption)
      rw [h]; have := sq_pos_of_ne_zero h0; simpa using this
    · have := mul_pos hs2 (sq_pos_of_ne_zero h)
      have := sq_nonneg (t 0 + s * t 1)
      linarith
  have hd : ((0 : Fin 2) :: 1 :: []).Nodup := by decide
  have hS := hP.submatrix (List.nodup_iff_injective_get.1 hd)
  obtain ⟨p, h⟩ := (c116_partial_correlation (N := 10) hd hS).2 (Pi.single 0 1) (Pi.single 1 1)
    ⟨by simp, fun v hv => Or.inl (by by_contra h; exact hv (Pi.single_eq_of_ne h _)), fun z hz => absurd hz (by simp)⟩
    ⟨by simp, fun v hv => Or.inl (by by_contra h; exact hv (Pi.single_eq_of_ne h _)), fun z hz => absurd hz (by simp)⟩
  obtain ⟨p', r', h', _, _, hq⟩ := c116_range (N := 10) hd hS
  obtain ⟨q, hq, _⟩ := hq (by decide)
  have hst : covar (!![1, s; s, 1] : Matrix (Fin 2) (Fin 2) ℝ) (Pi.single 0 1) (Pi.single 1 1) = s ∧
      covar (!![1, s; s, 1] : Matrix (Fin 2) (Fin 2) ℝ) (Pi.single 0 1) (Pi.single 0 1) = 1 ∧
      covar (!![1, s; s, 1] : Matrix (Fin 2) (Fin 2) ℝ) (Pi.single 1 1) (Pi.single 1 1) = 1 := by
    refine ⟨?_, ?_, ?_⟩ <;> simp [covar, Fin.sum_univ_two]
  rw [hst.1, hst.2.1, hst.2.2] at h
  simp only [mul_one, Real.sqrt_one, div_one] at h
  rw [h] at h'
  simp only [Except.ok.injEq, Prod.mk.injEq, Stat.fin.injEq] at h'
  rw [← h'.1] at hq
  rw [hq] at h
  exact ⟨q, h⟩

example : ∃ q q', fisherzFromCorr !![1, 1 / 2; 1 / 2, 1] 10 0 1 (some []) = .ok (.val q, .fin (1 / 2)) ∧
    fisherzFromCorr !![1, 3 / 4; 3 / 4, 1] 10 0 1 (some []) = .ok (.val q', .fin (3 / 4)) ∧ q' ≤ q := by
  obtain ⟨q, h⟩ := exTwo (s := 1 / 2) (by norm_num) (by norm_num)
  obtain ⟨q', h'⟩ := exTwo (s := 3 / 4) (by norm_num) (by norm_num)
  exact ⟨q, q', h, h', c116_monotone rfl h h' (by rw [abs_of_pos, abs_of_pos] <;> norm_num)⟩

theorem exFwd_reach : Reachable .digraph exFwd := (built_reachable _ _ _ (by decide) (by decide)).reachable

theorem exFwd_R : (fun i j => Dir exFwd (exFwd.nodes.get i) (exFwd.nodes.get j)) = exR := by
  funext i j
  unfold exR Dir
  have : ∀ i j : Fin 3, (exFwd.getEdge ([1, 2, 3].get i) ([1, 2, 3].get j) = .ok (some ⟨[1, 2, 3].get i, [1, 2, 3].get j, .tail, .arrow⟩)) ↔
    (i = 0 ∧ j = 1) ∨ (i = 1 ∧ j = 2) := by decide +kernel
  exact propext (this i j)

example := c118_pc (G := exFwd) (C := exCov) exFwd_reach (acyclic_of_check exFwd_reach (by decide +kernel)) (by rw [exFwd_R]; exact exLinear)
  (by rw [exFwd_R]; exact exFaithful) (alpha := 1 / 20) (by norm_num) (by norm_num) (so := id) (fun l => List.Perm.refl l)

example := c118_few (names := ["a", "b", "c"]) (N := 2) (corrOf_posDef exPosDef) (by decide) (alpha := 1 / 20) (by norm_num) (by decide)
  adjacencySearch (Or.inl rfl)

section sem
open MeasureTheory ProbabilityTheory
open scoped ProbabilityTheory

/-- Three independent standard normal errors. -/
noncomputable def exMu : Measure (Fin 3 → ℝ) := Measure.pi fun _ => gaussianReal 0 1

instance : IsProbabilityMeasure exMu := by unfold exMu; infer_instance

/-- The chain generated from the errors. -/
def exX (v : Fin 3) (ω : Fin 3 → ℝ) : ℝ := ![ω 0, ω 0 + ω 1, ω 0 + ω 1 + ω 2] v

theorem exX_err (v : Fin 3) : (fun ω => exX v ω - ∑ w, (!![0, 0, 0; 1, 0, 0; 0, 1, 0] : Matrix (Fin 3) (Fin 3) ℝ) v w * exX w ω) = fun ω => ω v := by
  ext ω
  fin_cases v <;> simp [exX, Fin.sum_univ_three]

theorem exEval (v : Fin 3) : MemLp (fun ω : Fin 3 → ℝ => ω v) 2 exMu :=
  (memLp_id_gaussianReal' 2 (by simp)).comp_measurePreserving (measurePreserving_eval (fun _ => gaussianReal 0 1) v)

example := c117_random_variables (μ := exMu) (N := 10) exAcyclic (X := exX)
  (by
    intro v
    have h : ∀ k, MemLp (fun ω : Fin 3 → ℝ => ω k) 2 exMu := exEval
    fin_cases v
    · exact h 0
    · exact (h 0).add (h 1)
    · exact ((h 0).add (h 1)).add (h 2))
  (B := !![0, 0, 0; 1, 0, 0; 0, 1, 0])
  (by intro v u h; fin_cases v <;> fin_cases u <;> simp [exR] at h ⊢)
  (by
    intro u v h
    rw [exX_err, exX_err]
    have := (iIndepFun_pi (μ := fun _ : Fin 3 => gaussianReal 0 1) (X := fun _ x => x) (fun _ => aemeasurable_id)).indepFun h
    exact this.covariance_eq_zero (exEval u) (exEval v))
  (by
    intro v
    rw [exX_err, covariance_self (exEval v).aemeasurable]
    have := (measurePreserving_eval (fun _ : Fin 3 => gaussianReal 0 1) v).variance_fun_comp
      (f := fun x => x) aemeasurable_id
    unfold exMu
    rw [this]
    have h2 := variance_fun_id_gaussianReal (μ := 0) (v := 1)
    simp [h2])
  exNodup (exDSep (by simp))

end sem

end Cdmir.Fisher
