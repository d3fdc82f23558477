import Verif.Props.AnmDrawn
import Verif.Props.KernelZero
import Mathlib.Probability.Distributions.Uniform

/-! C183: an additive noise model for which the probability of the wrong direction does not tend to zero. -/

namespace Cdmir.AnmDrawn
open BigOperators KTest MeasureTheory ProbabilityTheory Filter
open scoped Topology

variable {n : Nat}

/-- A sample in which one row differs from the others in both columns is not a product. -/
theorem not_product {x : Fin (n + 2) → Fin 1 → ℝ} (h : x 0 ≠ x 1) : ¬ Product x x := by
  intro hp
  have h1 := hp (x 0) (x 1)
  have e : IsEmpty {i // x i = x 0 ∧ x i = x 1} := ⟨fun i => h (i.2.1.symm.trans i.2.2)⟩
  rw [Nat.card_of_isEmpty, mul_zero, zero_eq_mul, Nat.card_eq_zero, Nat.card_eq_zero] at h1
  rcases h1 with (h1 | h1) | h1 | h1
  · exact h1.false ⟨0, rfl⟩
  · exact h1.not_finite inferInstance
  · exact h1.false ⟨1, rfl⟩
  · exact h1.not_finite inferInstance

/-- If the noise equals the cause in every row and is not constant, the backward direction has the lesser score. -/
theorem second_of_rows {R C : Data (n + 2) 2} (h0 : ∀ i, R i 0 = C i 0) (hne : C 0 0 ≠ C 1 0) (h1 : ∀ i, R i 1 = 0) : Second (n + 2) (R, C) := by
  unfold Second
  have e1 : kernelOf (pick 1 R) = none := kernelOf_none.2 fun i j => by
    funext k
    simp only [pick, h1]
  have e2 : pick 0 R = pick 0 C := by
    funext i k
    exact h0 i
  simp only
  rw [fastHsicOf_eq, e1, e2, fastHsicOf_eq]
  have h2 := fastOf_nonneg (pick 0 C) (pick 0 C)
  refine lt_of_le_of_ne h2 fun h3 => ?_
  exact not_product (fun h => hne (congrFun h 0)) ((fastHsicOf_zero _ _).1 h3.symm)

section model
variable {Ω : Type} [MeasurableSpace Ω] {P : Measure Ω} [IsProbabilityMeasure P]

/-- A fair coin. -/
noncomputable def coin : Measure (Fin 2) := (PMF.uniformOfFintype (Fin 2)).toMeasure

instance : IsProbabilityMeasure coin := by unfold coin; infer_instance

theorem coin_pos (a : Fin 2) : coin {a} ≠ 0 := by
  unfold coin
  rw [PMF.toMeasure_apply_singleton _ _ (measurableSet_singleton a), PMF.uniformOfFintype_apply]
  simp

/-- Residuals of the model `Y = X + E` and of the backward model, where the mean of `X` given `Y` is `Y / 2`. -/
noncomputable def exRes (z : Fin 2 × Fin 2) : Fin 2 → ℝ := ![(z.2 : ℕ), (z.1 : ℕ) - ((z.1 : ℕ) + (z.2 : ℕ)) / 2]

/-- The causes. -/
noncomputable def exCause (z : Fin 2 × Fin 2) : Fin 2 → ℝ := ![(z.1 : ℕ), (z.1 : ℕ) + (z.2 : ℕ)]

/-- C183. Expected: the probability of the wrong direction tends to zero. False for two coins `X` and `E` and `Y = X + E`: the noise is independent of the cause and the residual of the backward
regression is not independent of `Y`, but from 2000 records on the backward direction gets the lesser score with a probability that does not depend on the number of records and is not zero. -/
theorem c183_inconsistent_false : ∃ (Ω : Type) (_ : MeasurableSpace Ω) (P : Measure Ω) (_ : IsProbabilityMeasure P) (Z : ℕ → Ω → Fin 2 × Fin 2),
    DrawnPairs P (fun s ω => exRes (Z s ω)) (fun s ω => exCause (Z s ω)) ∧
    IndepFun (fun ω => exRes (Z 0 ω) 0) (fun ω => exCause (Z 0 ω) 0) P ∧ ¬ IndepFun (fun ω => exRes (Z 0 ω) 1) (fun ω => exCause (Z 0 ω) 1) P ∧
    ∃ δ : ENNReal, δ ≠ 0 ∧ ∀ N ≥ 2000, P {ω | normalizedHsic (pick 1 (upto (fun s ω => exRes (Z s ω)) N ω)) (pick 1 (upto (fun s ω => exCause (Z s ω)) N ω)) <
      normalizedHsic (pick 0 (upto (fun s ω => exRes (Z s ω)) N ω)) (pick 0 (upto (fun s ω => exCause (Z s ω)) N ω))} = δ := by
  obtain ⟨Ω, mΩ, P, Z, hm, hl, hi, hP⟩ := exists_iid ℕ (coin.prod coin)
  have hlaw : ∀ s (A : Set (Fin 2 × Fin 2)), P (Z s ⁻¹' A) = (coin.prod coin) A := fun s A => by
    rw [← (hl s).map_eq, Measure.map_apply (hm s) A.toFinite.measurableSet]
  have hpos : ∀ s z, P (Z s ⁻¹' {z}) ≠ 0 := fun s z => by
    rw [hlaw, ← Set.singleton_prod_singleton (a := z.1) (b := z.2), Measure.prod_prod]
    exact mul_ne_zero (coin_pos _) (coin_pos _)
  have hd : DrawnPairs P (fun s ω => exRes (Z s ω)) (fun s ω => exCause (Z s ω)) :=
    ⟨fun s => (measurable_of_finite exRes).comp (hm s), fun s => (measurable_of_finite exCause).comp (hm s), hi.comp (fun _ z => (exRes z, exCause z)) fun _ => measurable_of_finite _,
      fun s => ((hl s).identDistrib (hl 0)).comp (u := fun z => (exRes z, exCause z)) (measurable_of_finite _)⟩
  have hind : IndepFun (fun ω => (Z 0 ω).1) (fun ω => (Z 0 ω).2) P := by
    refine indepFun_iff_measure_inter_preimage_eq_mul.2 fun A B hA hB => ?_
    have e0 : (fun ω => (Z 0 ω).1) ⁻¹' A ∩ (fun ω => (Z 0 ω).2) ⁻¹' B = Z 0 ⁻¹' (A ×ˢ B) := rfl
    have e1 : (fun ω => (Z 0 ω).1) ⁻¹' A = Z 0 ⁻¹' (A ×ˢ Set.univ) := by ext; simp
    have e2 : (fun ω => (Z 0 ω).2) ⁻¹' B = Z 0 ⁻¹' (Set.univ ×ˢ B) := by ext; simp
    rw [e0, e1, e2, hlaw, hlaw, hlaw, Measure.prod_prod, Measure.prod_prod, Measure.prod_prod, measure_univ, mul_one, one_mul]
  refine ⟨Ω, mΩ, P, hP, Z, hd, ?_, fun hno => ?_, ?_⟩
  · exact hind.symm.comp (φ := fun a : Fin 2 => ((a : ℕ) : ℝ)) (ψ := fun a : Fin 2 => ((a : ℕ) : ℝ)) (measurable_of_finite _) (measurable_of_finite _)
  · have h1 := indepFun_iff_measure_inter_preimage_eq_mul.1 hno {1 / 2} {0} (measurableSet_singleton _) (measurableSet_singleton _)
    have e0 : (fun ω => exRes (Z 0 ω) 1) ⁻¹' {1 / 2} ∩ (fun ω => exCause (Z 0 ω) 1) ⁻¹' {0} = ∅ := by
      ext ω
      simp only [Set.mem_inter_iff, Set.mem_preimage, Set.mem_singleton_iff, Set.mem_empty_iff_false, iff_false]
      generalize Z 0 ω = z
      obtain ⟨a, b⟩ := z
      fin_cases a <;> fin_cases b <;> norm_num [exRes, exCause]
    rw [e0, measure_empty] at h1
    refine mul_ne_zero (fun h => hpos 0 (1, 0) (measure_mono_null ?_ h)) (fun h => hpos 0 (0, 0) (measure_mono_null ?_ h)) h1.symm
    · intro ω hω
      have hω' : Z 0 ω = (1, 0) := hω
      simp only [Set.mem_preimage, hω', Set.mem_singleton_iff]
      norm_num [exRes]
    · intro ω hω
      have hω' : Z 0 ω = (0, 0) := hω
      simp only [Set.mem_preimage, hω', Set.mem_singleton_iff]
      norm_num [exCause]
  · refine ⟨_, ?_, fun N hN => c183_wrong_false hd hN⟩
    have key : ∀ m, P {ω | Second (m + 2) (upto (fun s ω => exRes (Z s ω)) (m + 2) ω, upto (fun s ω => exCause (Z s ω)) (m + 2) ω)} ≠ 0 := fun m h0 => by
      have h1 := hi.measure_inter_preimage_eq_mul (S := Finset.range (m + 2)) (sets := fun s => if s = 0 then {(0, 0)} else {(1, 1)}) fun s _ => Set.Finite.measurableSet (Set.toFinite _)
      have h2 : P (⋂ s ∈ Finset.range (m + 2), Z s ⁻¹' (if s = 0 then {(0, 0)} else {(1, 1)})) = 0 := by
        refine measure_mono_null (fun ω hω => ?_) h0
        simp only [Set.mem_iInter, Finset.mem_range] at hω
        have hz : ∀ s, s < m + 2 → Z s ω = if s = 0 then (0, 0) else (1, 1) := fun s hs => by
          have := hω s hs
          split <;> rename_i h <;> simpa [h] using this
        refine second_of_rows (fun i => ?_) ?_ fun i => ?_
        · simp only [upto]
          rw [hz i i.2]
          split <;> norm_num [exRes, exCause]
        · simp only [upto]
          rw [hz _ (Fin.isLt 0), hz _ (Fin.isLt 1)]
          norm_num [exCause]
        · simp only [upto]
          rw [hz i i.2]
          split <;> norm_num [exRes]
      rw [h2] at h1
      obtain ⟨s, -, hs⟩ := Finset.prod_eq_zero_iff.1 h1.symm
      split at hs
      · exact hpos _ _ hs
      · exact hpos _ _ hs
    exact key 1998

end model

end Cdmir.AnmDrawn
