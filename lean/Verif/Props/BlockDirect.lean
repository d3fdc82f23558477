import Verif.Props.BlockLevel

/-! C188: the variance of the U statistic under independence, and the method 'direct' of the block test. -/

namespace Cdmir.BlockDirect
open BigOperators KTest HsicTest ShuffleTest NullMean UnbiasedMean BlockPower BlockLevel MeasureTheory ProbabilityTheory Filter
open scoped Topology

variable {n d e b : Nat}

theorem inj2 {i j : Fin n} (h : i ≠ j) : Function.Injective ![i, j] := by
  intro x y e
  fin_cases x <;> fin_cases y <;> simp_all

theorem inj3 {i j k : Fin n} (h1 : i ≠ j) (h2 : i ≠ k) (h3 : j ≠ k) : Function.Injective ![i, j, k] := by
  intro x y e
  fin_cases x <;> fin_cases y <;> first | rfl | exact absurd e h1 | exact absurd e.symm h1 | exact absurd e h2 | exact absurd e.symm h2 | exact absurd e h3 | exact absurd e.symm h3

theorem inj4 {i j k l : Fin n} (h1 : i ≠ j) (h2 : i ≠ k) (h3 : i ≠ l) (h4 : j ≠ k) (h5 : j ≠ l) (h6 : k ≠ l) : Function.Injective ![i, j, k, l] := by
  intro x y e
  fin_cases x <;> fin_cases y <;> first | rfl | exact absurd e h1 | exact absurd e.symm h1 | exact absurd e h2 | exact absurd e.symm h2 | exact absurd e h3 | exact absurd e.symm h3 | exact absurd e h4 | exact absurd e.symm h4 | exact absurd e h5 | exact absurd e.symm h5 | exact absurd e h6 | exact absurd e.symm h6

/-- The sums over all shuffles of products of two entries, by how many indices they share. -/
theorem kinds (hn : 4 ≤ n) {B : Mat n} (hB0 : ∀ i, B i i = 0) (hBr : ∀ i, ∑ j, B i j = 0) (hBs : ∀ i j, B i j = B j i) {G : Fin n → Fin n → Fin n → Fin n → ℝ}
    (hG : G = fun i j k l => ∑ σ : Equiv.Perm (Fin n), B (σ i) (σ j) * B (σ k) (σ l)) : ∃ c2 c3 c4 : ℝ, (∀ i j, i ≠ j → G i j i j = c2) ∧
      (∀ i j, i ≠ j → G i j j i = c2) ∧ (∀ i j l, i ≠ j → i ≠ l → j ≠ l → G i j i l = c3) ∧ (∀ i j k, i ≠ j → i ≠ k → j ≠ k → G i j k i = c3 ∧ G i j j k = c3 ∧ G i j k j = c3) ∧
      (∀ i j k l, i ≠ j → i ≠ k → i ≠ l → j ≠ k → j ≠ l → k ≠ l → G i j k l = c4) ∧ c2 + (n - 2) * c3 = 0 ∧ 2 * c3 + (n - 3) * c4 = 0 ∧
      n * (n - 1) * c2 = n.factorial * ∑ i, ∑ j, B i j ^ 2 := by
  have inv : ∀ (τ : Equiv.Perm (Fin n)) i j k l, G (τ i) (τ j) (τ k) (τ l) = G i j k l := fun τ i j k l => by
    rw [hG]
    exact Fintype.sum_equiv (Equiv.mulRight τ) _ _ fun σ => rfl
  have s1 : ∀ i j k l, G i j k l = G j i k l := fun i j k l => by
    rw [hG]
    exact Finset.sum_congr rfl fun σ _ => by rw [hBs (σ i) (σ j)]
  have s2 : ∀ i j k l, G i j k l = G i j l k := fun i j k l => by
    rw [hG]
    exact Finset.sum_congr rfl fun σ _ => by rw [hBs (σ k) (σ l)]
  have z : ∀ i j k, G i j k k = 0 := fun i j k => by
    rw [hG]
    exact Finset.sum_eq_zero fun σ _ => by rw [hB0, mul_zero]
  have r : ∀ i j k, ∑ l, G i j k l = 0 := fun i j k => by
    rw [hG]
    simp only
    rw [Finset.sum_comm]
    refine Finset.sum_eq_zero fun σ _ => ?_
    rw [← Finset.mul_sum, Equiv.sum_comp σ fun l => B (σ k) l, hBr, mul_zero]
  obtain ⟨f, hf⟩ : ∃ f : Fin 4 → Fin n, f = fun a => ⟨a, by omega⟩ := ⟨_, rfl⟩
  have hfi : Function.Injective f := fun x y h => by
    rw [hf] at h
    exact Fin.ext (by simpa using h)
  have c2e : ∀ i j, i ≠ j → G i j i j = G (f 0) (f 1) (f 0) (f 1) := fun i j h => by
    have a := inj2 h
    obtain ⟨τ, hτ⟩ := Equiv.Perm.exists_extending_pair ![i, j] (f ∘ ![0, 1]) a (hfi.comp (by decide))
    have h0 : τ i = f 0 := hτ 0
    have h1 : τ j = f 1 := hτ 1
    rw [← inv τ, h0, h1]
  have c3e : ∀ i j l, i ≠ j → i ≠ l → j ≠ l → G i j i l = G (f 0) (f 1) (f 0) (f 2) := fun i j l h h' h'' => by
    have a := inj3 h h' h''
    obtain ⟨τ, hτ⟩ := Equiv.Perm.exists_extending_pair ![i, j, l] (f ∘ ![0, 1, 2]) a (hfi.comp (by decide))
    have h0 : τ i = f 0 := hτ 0
    have h1 : τ j = f 1 := hτ 1
    have h2 : τ l = f 2 := hτ 2
    rw [← inv τ, h0, h1, h2]
  have c4e : ∀ i j k l, i ≠ j → i ≠ k → i ≠ l → j ≠ k → j ≠ l → k ≠ l → G i j k l = G (f 0) (f 1) (f 2) (f 3) := fun i j k l h1 h2 h3 h4 h5 h6 => by
    have a := inj4 h1 h2 h3 h4 h5 h6
    obtain ⟨τ, hτ⟩ := Equiv.Perm.exists_extending_pair ![i, j, k, l] (f ∘ ![0, 1, 2, 3]) a (hfi.comp (by decide))
    have h0 : τ i = f 0 := hτ 0
    have h1 : τ j = f 1 := hτ 1
    have h2 : τ k = f 2 := hτ 2
    have h3 : τ l = f 3 := hτ 3
    rw [← inv τ, h0, h1, h2, h3]
  generalize G (f 0) (f 1) (f 0) (f 1) = c2 at c2e
  generalize G (f 0) (f 1) (f 0) (f 2) = c3 at c3e
  generalize G (f 0) (f 1) (f 2) (f 3) = c4 at c4e
  have c3e' : ∀ i j k, i ≠ j → i ≠ k → j ≠ k → G i j k i = c3 ∧ G i j j k = c3 ∧ G i j k j = c3 := fun i j k h1 h2 h3 =>
    ⟨by rw [s2]; exact c3e i j k h1 h2 h3, by rw [s1]; exact c3e j i k h1.symm h3 h2, by rw [s1, s2]; exact c3e j i k h1.symm h3 h2⟩
  have c2e' : ∀ i j, i ≠ j → G i j j i = c2 := fun i j h => by rw [s2]; exact c2e i j h
  have h01 : f 0 ≠ f 1 := hfi.ne (by decide)
  have h02 : f 0 ≠ f 2 := hfi.ne (by decide)
  have h12 : f 1 ≠ f 2 := hfi.ne (by decide)
  have q1 : c2 + (n - 2) * c3 = 0 := by
    have e : ∀ l, G (f 0) (f 1) (f 0) l = c3 - (if f 0 = l then c3 else 0) + (if f 1 = l then c2 - c3 else 0) := fun l => by
      by_cases h0 : f 0 = l
      · rw [← h0, z, if_pos rfl, if_neg h01.symm]; ring
      · by_cases h1 : f 1 = l
        · rw [← h1, c2e _ _ h01, if_neg h01, if_pos rfl]; ring
        · rw [c3e _ _ _ h01 h0 h1, if_neg h0, if_neg h1]; ring
    have := r (f 0) (f 1) (f 0)
    simp only [e, Finset.sum_add_distrib, Finset.sum_sub_distrib, Finset.sum_ite_eq, Finset.mem_univ, if_true, Finset.sum_const, Finset.card_univ, Fintype.card_fin, nsmul_eq_mul] at this
    linarith
  have q2 : 2 * c3 + (n - 3) * c4 = 0 := by
    have e : ∀ l, G (f 0) (f 1) (f 2) l = c4 + (if f 0 = l then c3 - c4 else 0) + (if f 1 = l then c3 - c4 else 0) - (if f 2 = l then c4 else 0) := fun l => by
      by_cases h0 : f 0 = l
      · rw [← h0, (c3e' _ _ _ h01 h02 h12).1, if_pos rfl, if_neg h01.symm, if_neg h02.symm]; ring
      · by_cases h1 : f 1 = l
        · rw [← h1, (c3e' _ _ _ h01 h02 h12).2.2, if_neg h01, if_pos rfl, if_neg h12.symm]; ring
        · by_cases h2 : f 2 = l
          · rw [← h2, z, if_neg h02, if_neg h12, if_pos rfl]; ring
          · rw [c4e _ _ _ _ h01 h02 h0 h12 h1 h2, if_neg h0, if_neg h1, if_neg h2]; ring
    have := r (f 0) (f 1) (f 2)
    simp only [e, Finset.sum_add_distrib, Finset.sum_sub_distrib, Finset.sum_ite_eq, Finset.mem_univ, if_true, Finset.sum_const, Finset.card_univ, Fintype.card_fin, nsmul_eq_mul] at this
    linarith
  have q3 : n * (n - 1) * c2 = n.factorial * ∑ i, ∑ j, B i j ^ 2 := by
    have e : ∀ i j, G i j i j = c2 - if i = j then c2 else 0 := fun i j => by
      by_cases h : i = j
      · subst h; rw [z, if_pos rfl, sub_self]
      · rw [c2e i j h, if_neg h, sub_zero]
    have h1 : ∑ i, ∑ j, G i j i j = n.factorial * ∑ i, ∑ j, B i j ^ 2 := by
      have h2 : ∀ σ : Equiv.Perm (Fin n), ∑ i, ∑ j, B (σ i) (σ j) * B (σ i) (σ j) = ∑ i, ∑ j, B i j ^ 2 := fun σ => by
        rw [Equiv.sum_comp σ fun i => ∑ j, B i (σ j) * B i (σ j)]
        refine Finset.sum_congr rfl fun i _ => ?_
        rw [Equiv.sum_comp σ fun j => B i j * B i j]
        exact Finset.sum_congr rfl fun j _ => (sq _).symm
      have h3 : ∑ i, ∑ j, G i j i j = ∑ σ : Equiv.Perm (Fin n), ∑ i, ∑ j, B (σ i) (σ j) * B (σ i) (σ j) := by
        rw [hG]
        exact (Finset.sum_congr rfl fun i _ => Finset.sum_comm).trans Finset.sum_comm
      rw [h3]
      simp only [h2, Finset.sum_const, Finset.card_univ, Fintype.card_perm, Fintype.card_fin, nsmul_eq_mul]
    simp only [e, Finset.sum_sub_distrib, Finset.sum_ite_eq, Finset.mem_univ, if_true, Finset.sum_const, Finset.card_univ, Fintype.card_fin, nsmul_eq_mul] at h1
    linarith
  exact ⟨c2, c3, c4, c2e, c2e', c3e, c3e', c4e, q1, q2, q3⟩

/-- The second moment over all shuffles of an inner product of doubly centred matrices. -/
theorem moment (hn : 4 ≤ n) {A B : Mat n} (hA0 : ∀ i, A i i = 0) (hAr : ∀ i, ∑ j, A i j = 0) (hAs : ∀ i j, A i j = A j i) (hB0 : ∀ i, B i i = 0) (hBr : ∀ i, ∑ j, B i j = 0)
    (hBs : ∀ i j, B i j = B j i) :
    ∑ σ : Equiv.Perm (Fin n), (∑ i, ∑ j, A i j * B (σ i) (σ j)) ^ 2 = n.factorial * (2 * (∑ i, ∑ j, A i j ^ 2) * (∑ i, ∑ j, B i j ^ 2) / (n * ((n : ℝ) - 3))) := by
  have hn' : (4 : ℝ) ≤ n := by exact_mod_cast hn
  obtain ⟨G, hG⟩ : ∃ G : Fin n → Fin n → Fin n → Fin n → ℝ, G = fun i j k l => ∑ σ : Equiv.Perm (Fin n), B (σ i) (σ j) * B (σ k) (σ l) := ⟨_, rfl⟩
  obtain ⟨c2, c3, c4, c2e, c2e', c3e, c3e', c4e, q1, q2, q3⟩ := kinds hn hB0 hBr hBs hG
  have hAc : ∀ j, ∑ i, A i j = 0 := fun j => by
    rw [← hAr j]
    exact Finset.sum_congr rfl fun i _ => hAs i j
  have inner : ∀ i j, i ≠ j → ∑ k, ∑ l, A k l * G i j k l = 2 * (c2 - 2 * c3 + c4) * A i j := fun i j hij => by
    have e : ∀ k l, A k l * G i j k l = c4 * A k l + (if i = k then (c3 - c4) * A k l else 0) + (if j = k then (c3 - c4) * A k l else 0) +
        (if i = l then (c3 - c4) * A k l else 0) + (if j = l then (c3 - c4) * A k l else 0) + (if i = k then if j = l then (c2 - 2 * c3 + c4) * A k l else 0 else 0) +
        (if j = k then if i = l then (c2 - 2 * c3 + c4) * A k l else 0 else 0) := fun k l => by
      by_cases hkl : k = l
      · subst hkl
        simp [hA0]
      · by_cases h1 : i = k
        · subst h1
          rw [if_pos rfl, if_neg hij.symm, if_neg hkl, if_pos rfl, if_neg hij.symm]
          by_cases h2 : j = l
          · subst h2
            rw [c2e i j hij, if_pos rfl, if_pos rfl]; ring
          · rw [c3e i j l hij hkl h2, if_neg h2, if_neg h2]; ring
        · rw [if_neg h1, if_neg h1]
          by_cases h2 : j = k
          · subst h2
            rw [if_pos rfl, if_pos rfl, if_neg hkl]
            by_cases h3 : i = l
            · subst h3
              rw [c2e' i j hij, if_pos rfl, if_pos rfl]; ring
            · rw [(c3e' i j l hij h3 hkl).2.1, if_neg h3, if_neg h3]; ring
          · rw [if_neg h2, if_neg h2]
            by_cases h3 : i = l
            · subst h3
              rw [(c3e' i j k hij h1 h2).1, if_pos rfl, if_neg hij.symm]; ring
            · by_cases h4 : j = l
              · subst h4
                rw [(c3e' i j k hij h1 h2).2.2, if_neg h3, if_pos rfl]; ring
              · rw [c4e i j k l hij h1 h3 h2 h4 hkl, if_neg h3, if_neg h4]; ring
    have t1 : ∀ i, ∑ k, ∑ l, (if i = k then (c3 - c4) * A k l else 0) = 0 := fun i => by
      have : ∀ k, ∑ l, (if i = k then (c3 - c4) * A k l else 0) = 0 := fun k => by
        split
        · rw [← Finset.mul_sum, hAr, mul_zero]
        · simp
      simp only [this, Finset.sum_const_zero]
    have t2 : ∀ i, ∑ k, ∑ l, (if i = l then (c3 - c4) * A k l else 0) = 0 := fun i => by
      simp only [Finset.sum_ite_eq, Finset.mem_univ, if_true, ← Finset.mul_sum, hAc, mul_zero]
    have t3 : ∀ i j, ∑ k, ∑ l, (if i = k then if j = l then (c2 - 2 * c3 + c4) * A k l else 0 else 0) = (c2 - 2 * c3 + c4) * A i j := fun i j => by
      have : ∀ k, ∑ l, (if i = k then if j = l then (c2 - 2 * c3 + c4) * A k l else 0 else 0) = if i = k then (c2 - 2 * c3 + c4) * A k j else 0 := fun k => by
        split
        · simp only [Finset.sum_ite_eq, Finset.mem_univ, if_true]
        · simp
      simp only [this, Finset.sum_ite_eq, Finset.mem_univ, if_true]
    simp only [e, Finset.sum_add_distrib, t1, t2, t3, ← Finset.mul_sum, hAr, Finset.sum_const_zero]
    rw [hAs j i]
    ring
  have expand : ∑ σ : Equiv.Perm (Fin n), (∑ i, ∑ j, A i j * B (σ i) (σ j)) ^ 2 = ∑ i, ∑ j, A i j * ∑ k, ∑ l, A k l * G i j k l := by
    have h1 : ∀ i j, ∑ k, ∑ l, A k l * G i j k l = ∑ σ : Equiv.Perm (Fin n), B (σ i) (σ j) * ∑ k, ∑ l, A k l * B (σ k) (σ l) := fun i j => by
      simp only [hG, Finset.mul_sum]
      refine ((Finset.sum_congr rfl fun k _ => Finset.sum_comm).trans Finset.sum_comm).trans (Finset.sum_congr rfl fun σ _ => Finset.sum_congr rfl fun k _ => Finset.sum_congr rfl fun l _ => by ring)
    simp only [h1]
    have h2 : ∀ i j, A i j * ∑ σ : Equiv.Perm (Fin n), B (σ i) (σ j) * ∑ k, ∑ l, A k l * B (σ k) (σ l) =
        ∑ σ : Equiv.Perm (Fin n), A i j * B (σ i) (σ j) * ∑ k, ∑ l, A k l * B (σ k) (σ l) := fun i j => by
      rw [Finset.mul_sum]
      exact Finset.sum_congr rfl fun σ _ => by ring
    simp only [h2]
    refine Eq.symm (((Finset.sum_congr rfl fun i _ => Finset.sum_comm).trans Finset.sum_comm).trans (Finset.sum_congr rfl fun σ _ => ?_))
    simp only [← Finset.sum_mul]
    exact (sq _).symm
  rw [expand]
  have fin : ∀ i j, A i j * ∑ k, ∑ l, A k l * G i j k l = 2 * (c2 - 2 * c3 + c4) * A i j ^ 2 := fun i j => by
    by_cases h : i = j
    · subst h; rw [hA0]; ring
    · rw [inner i j h]; ring
  simp only [fin, ← Finset.mul_sum]
  have a0 : (n : ℝ) ≠ 0 := by linarith
  have a1 : (n : ℝ) - 1 ≠ 0 := by linarith
  have a2 : (n : ℝ) - 2 ≠ 0 := by linarith
  have a3 : (n : ℝ) - 3 ≠ 0 := by linarith
  have k3 : c3 = -c2 / (n - 2) := by rw [eq_div_iff a2]; linarith
  have k4 : c4 = -2 * c3 / (n - 3) := by rw [eq_div_iff a3]; linarith
  have k2 : c2 = n.factorial * (∑ i, ∑ j, B i j ^ 2) / (n * (n - 1)) := by rw [eq_div_iff (mul_ne_zero a0 a1)]; linarith
  rw [k4, k3, k2]
  field_simp
  ring

/-- C188. The second moment of the U statistic over all shuffles of the rows of one sample, exactly. -/
theorem c188_moment (hn : 4 ≤ n) {K L : Mat n} (hK : K.IsSymm) (hL : L.IsSymm) : ∃ u v : ℝ, (uStat K K).1 = some u ∧ (uStat L L).1 = some v ∧
    ∑ σ : Equiv.Perm (Fin n), ((uStat K (shuffle σ L)).1.getD 0) ^ 2 = n.factorial * (2 * u * v / (n * ((n : ℝ) - 3))) := by
  refine ⟨_, _, c144_inner hn hK hK, c144_inner hn hL hL, ?_⟩
  have hrow : ∀ (σ : Equiv.Perm (Fin n)) i, row (shuffle σ L) i = row L (σ i) := fun σ i => by
    unfold row
    rw [← Equiv.sum_comp σ fun j => zeroDiag L (σ i) j]
    exact Finset.sum_congr rfl fun j _ => by simp [zeroDiag, shuffle]
  have hd : ∀ (σ : Equiv.Perm (Fin n)) i j, doubly (shuffle σ L) i j = doubly L (σ i) (σ j) := fun σ i j => by
    unfold doubly
    have : ∑ t, row L (σ t) = ∑ t, row L t := Equiv.sum_comp σ fun t => row L t
    simp only [Matrix.of_apply, hrow, this, σ.injective.eq_iff]
    rfl
  have hs : ∀ σ : Equiv.Perm (Fin n), (shuffle σ L).IsSymm := fun σ => by
    ext i j
    exact hL.apply _ _
  have hu : ∀ σ : Equiv.Perm (Fin n), (uStat K (shuffle σ L)).1.getD 0 = (∑ i, ∑ j, doubly K i j * doubly L (σ i) (σ j)) / (n * (n - 3)) := fun σ => by
    rw [c144_inner hn hK (hs σ)]
    simp only [hd, Option.getD_some]
  simp only [hu, div_pow, ← Finset.sum_div]
  rw [moment hn (doubly_diag K) (doubly_row hn K) (fun i j => ((doubly_symm hK).apply j i)) (doubly_diag L) (doubly_row hn L) fun i j => ((doubly_symm hL).apply j i)]
  obtain ⟨a0, a1, a2, a3⟩ := den_ne hn
  simp only [← sq]
  field_simp

section drawn
variable {Ω : Type} [MeasurableSpace Ω] {P : Measure Ω} [IsProbabilityMeasure P]

omit [IsProbabilityMeasure P] in
theorem selfX {X : ℕ → Ω → Fin d → ℝ} {Y : ℕ → Ω → Fin e → ℝ} (h : DrawnPairs P X Y) : DrawnPairs P X X :=
  ⟨h.measX, h.measX, h.indep.comp (fun _ p => (p.1, p.1)) fun _ => by fun_prop, fun s => (h.ident s).comp (u := fun p => (p.1, p.1)) (by fun_prop)⟩

omit [IsProbabilityMeasure P] in
theorem selfY {X : ℕ → Ω → Fin d → ℝ} {Y : ℕ → Ω → Fin e → ℝ} (h : DrawnPairs P X Y) : DrawnPairs P Y Y :=
  ⟨h.measY, h.measY, h.indep.comp (fun _ p => (p.2, p.2)) fun _ => by fun_prop, fun s => (h.ident s).comp (u := fun p => (p.2, p.2)) (by fun_prop)⟩

theorem self_meas (w : ℝ) : Measurable fun x : Fin b → Fin d → ℝ => quadAt w w fun a => (x a, x a) := by
  have h1 : Measurable fun (x : Fin b → Fin d → ℝ) a => (x a, x a) := measurable_pi_lambda _ fun a => (measurable_pi_apply a).prodMk (measurable_pi_apply a)
  have h2 := (quadAt_meas (b := b) (d := d) (e := d) w w).comp h1
  exact h2

theorem shuffle_square (wx wy : ℝ) {X : ℕ → Ω → Fin d → ℝ} {Y : ℕ → Ω → Fin e → ℝ} (h : DrawnPairs P X Y) (hi : IndepFun (X 0) (Y 0) P) (σ : Equiv.Perm (Fin b)) :
    ∫ ω, quadAt wx wy (fun a : Fin b => (X a ω, Y (σ a) ω)) ^ 2 ∂P = ∫ ω, quadAt wx wy (fun a : Fin b => (X a ω, Y a ω)) ^ 2 ∂P := by
  have e : ∫ ω, shuffled wx wy X Y (fun _ => σ) 0 ω ^ 2 ∂P = ∫ ω, quadAt wx wy (fun a : Fin b => (X a ω, Y a ω)) ^ 2 ∂P :=
    ((shuffled_ident wx wy h hi (fun _ => σ) 0).comp (u := fun x => x ^ 2) (by fun_prop)).integral_eq
  rw [← e]
  unfold shuffled
  simp only [zero_mul, zero_add]

theorem sum_squares (hb : 4 ≤ b) (wx wy : ℝ) (x : Fin b → Fin d → ℝ) (y : Fin b → Fin e → ℝ) : ∑ σ : Equiv.Perm (Fin b), quadAt wx wy (fun a => (x a, y (σ a))) ^ 2 =
    (b.factorial : ℝ) * (2 / (b * ((b : ℝ) - 3))) * (quadAt wx wx (fun a => (x a, x a)) * quadAt wy wy (fun a => (y a, y a))) := by
  obtain ⟨u, v, h1, h2, h3⟩ := c188_moment hb (width_symm wx x) (width_symm wy y)
  rw [c144_tuples hb (width_symm wx _) (width_symm wx _)] at h1
  rw [c144_tuples hb (width_symm wy _) (width_symm wy _)] at h2
  have h4 : ∀ σ : Equiv.Perm (Fin b), (uStat (gaussianWidth wx x) (shuffle σ (gaussianWidth wy y))).1.getD 0 = quadAt wx wy (fun a => (x a, y (σ a))) := fun σ => by
    rw [c144_tuples hb (width_symm wx _) (by
      ext i j
      exact (width_symm wy y).apply _ _)]
    rfl
  have e1 : quadAt wx wx (fun a => (x a, x a)) = u := Option.some.inj h1
  have e2 : quadAt wy wy (fun a => (y a, y a)) = v := Option.some.inj h2
  simp only [h4] at h3
  rw [h3, e1, e2]
  ring

theorem prod_mean {wx wy : ℝ} (hwx : 0 < wx) (hwy : 0 < wy) {X : ℕ → Ω → Fin d → ℝ} {Y : ℕ → Ω → Fin e → ℝ} (h : DrawnPairs P X Y) (hi : IndepFun (X 0) (Y 0) P) (hb : 4 ≤ b) :
    ∫ ω, quadAt wx wx (fun a : Fin b => (X a ω, X a ω)) * quadAt wy wy (fun a : Fin b => (Y a ω, Y a ω)) ∂P =
      (∫ ω, term wx wx (fun a : Fin 4 => (X a ω, X a ω)) ∂P) * ∫ ω, term wy wy (fun a : Fin 4 => (Y a ω, Y a ω)) ∂P := by
  obtain ⟨mX, mY, h1, -⟩ := drawn_exchange h hi b
  rw [← quad_mean hwx.le hwx.le (selfX h) hb (f := fun a : Fin b => (a : ℕ)) Fin.val_injective, ← quad_mean hwy.le hwy.le (selfY h) hb (f := fun a : Fin b => (a : ℕ)) Fin.val_injective]
  have h2 := h1.comp (self_meas (d := d) wx) (self_meas (d := e) wy)
  exact h2.integral_fun_mul_eq_mul_integral ((self_meas wx).comp mX).aestronglyMeasurable ((self_meas wy).comp mY).aestronglyMeasurable

theorem square_mean {wx wy : ℝ} (hwx : 0 < wx) (hwy : 0 < wy) {X : ℕ → Ω → Fin d → ℝ} {Y : ℕ → Ω → Fin e → ℝ} (h : DrawnPairs P X Y) (hi : IndepFun (X 0) (Y 0) P) (hb : 4 ≤ b) :
    ∫ ω, quadAt wx wy (fun a : Fin b => (X a ω, Y a ω)) ^ 2 ∂P =
      2 * (∫ ω, term wx wx (fun a : Fin 4 => (X a ω, X a ω)) ∂P) * (∫ ω, term wy wy (fun a : Fin 4 => (Y a ω, Y a ω)) ∂P) / (b * ((b : ℝ) - 3)) := by
  have hsm : ∀ σ : Equiv.Perm (Fin b), Measurable fun ω => quadAt wx wy (fun a : Fin b => (X a ω, Y (σ a) ω)) := fun σ => by
    have h1 : Measurable fun ω (a : Fin b) => (X a ω, Y a ω) := tuple_meas h fun a : Fin b => (a : ℕ)
    have h2 := (mix_meas (d := d) (e := e) wx wy σ).comp h1
    exact h2
  have hint := integral_finsetSum (μ := P) Finset.univ (f := fun (σ : Equiv.Perm (Fin b)) ω => quadAt wx wy (fun a : Fin b => (X a ω, Y (σ a) ω)) ^ 2)
    fun σ _ => Integrable.of_bound ((hsm σ).pow_const 2).aestronglyMeasurable 16 (Eventually.of_forall fun ω => by
      rw [Real.norm_eq_abs, abs_pow]
      have h3 := quadAt_bound hwx.le hwy.le hb fun a : Fin b => (X a ω, Y (σ a) ω)
      have h4 := abs_nonneg (quadAt wx wy fun a : Fin b => (X a ω, Y (σ a) ω))
      nlinarith)
  have hs : ∀ ω, ∑ σ : Equiv.Perm (Fin b), quadAt wx wy (fun a : Fin b => (X a ω, Y (σ a) ω)) ^ 2 = _ := fun ω => sum_squares hb wx wy (fun a : Fin b => X a ω) (fun a : Fin b => Y a ω)
  simp only [shuffle_square wx wy h hi, hs, Finset.sum_const, Finset.card_univ, Fintype.card_perm, Fintype.card_fin, nsmul_eq_mul] at hint
  rw [integral_const_mul, prod_mean hwx hwy h hi hb, mul_assoc] at hint
  have := mul_left_cancel₀ (by exact_mod_cast b.factorial_ne_zero : (b.factorial : ℝ) ≠ 0) hint
  rw [← this]
  ring

/-- C188. Under independence the variance of the U statistic is exactly `2 DX DY / (N (N - 3))`, where `DX` and `DY` are the means, the same for all numbers of rows, of the
statistic of either sample with itself. -/
theorem c188_variance {wx wy : ℝ} (hwx : 0 < wx) (hwy : 0 < wy) {X : ℕ → Ω → Fin d → ℝ} {Y : ℕ → Ω → Fin e → ℝ} (h : DrawnPairs P X Y) (hi : IndepFun (X 0) (Y 0) P) :
    ∃ DX DY : ℝ, 0 ≤ DX ∧ 0 ≤ DY ∧ ∀ N : ℕ, 4 ≤ N → ∫ ω, (uStat (gaussianWidth wx (upto X N ω)) (gaussianWidth wx (upto X N ω))).1.getD 0 ∂P = DX ∧
      ∫ ω, (uStat (gaussianWidth wy (upto Y N ω)) (gaussianWidth wy (upto Y N ω))).1.getD 0 ∂P = DY ∧
      Var[fun ω => (uStat (gaussianWidth wx (upto X N ω)) (gaussianWidth wy (upto Y N ω))).1.getD 0; P] = 2 * DX * DY / (N * ((N : ℝ) - 3)) := by
  obtain ⟨DX, x1, -, x3⟩ := theta hwx hwx (selfX h)
  obtain ⟨DY, y1, -, y3⟩ := theta hwy hwy (selfY h)
  refine ⟨DX, DY, x1, y1, fun N hN => ⟨?_, ?_, ?_⟩⟩
  · rw [← x3, ← quad_mean hwx.le hwx.le (selfX h) hN (f := fun a : Fin N => (a : ℕ)) Fin.val_injective]
    refine integral_congr_ae (Eventually.of_forall fun ω => ?_)
    simp only [c144_tuples hN (width_symm wx (upto X N ω)) (width_symm wx (upto X N ω))]
    rfl
  · rw [← y3, ← quad_mean hwy.le hwy.le (selfY h) hN (f := fun a : Fin N => (a : ℕ)) Fin.val_injective]
    refine integral_congr_ae (Eventually.of_forall fun ω => ?_)
    simp only [c144_tuples hN (width_symm wy (upto Y N ω)) (width_symm wy (upto Y N ω))]
    rfl
  · have e : (fun ω => (uStat (gaussianWidth wx (upto X N ω)) (gaussianWidth wy (upto Y N ω))).1.getD 0) = fun ω => quadAt wx wy (fun a : Fin N => (X a ω, Y a ω)) := by
      funext ω
      rw [c144_tuples hN (width_symm wx _) (width_symm wy _)]
      rfl
    have hmean : ∫ ω, quadAt wx wy (fun a : Fin N => (X a ω, Y a ω)) ∂P = 0 := by
      rw [quad_mean hwx.le hwy.le h hN (f := fun a : Fin N => (a : ℕ)) Fin.val_injective]
      obtain ⟨D, -, h3, h4⟩ := theta hwx hwy h
      rw [h4, h3.2 hi]
    have hmeas : Measurable fun ω => quadAt wx wy (fun a : Fin N => (X a ω, Y a ω)) := (quadAt_meas wx wy).comp (tuple_meas h fun a : Fin N => (a : ℕ))
    rw [e, variance_of_integral_eq_zero hmeas.aemeasurable hmean, square_mean hwx hwy h hi hN, x3, y3]

/-- C188. With the method 'direct', the block test rejects independent variables as often as a test of the level `1 - Φ(2 z √((b - 3) / b))`: as often as it says with blocks of
four rows, and less often, however many the blocks, with longer ones. -/
theorem c188_direct_false {wx wy : ℝ} (hwx : 0 < wx) (hwy : 0 < wy) {X : ℕ → Ω → Fin d → ℝ} {Y : ℕ → Ω → Fin e → ℝ} (h : DrawnPairs P X Y) (hi : IndepFun (X 0) (Y 0) P) (hb : 4 ≤ b)
    (hv : Var[fun ω => (uStat (gaussianWidth wx (upto X b ω)) (gaussianWidth wy (upto Y b ω))).1.getD 0; P] ≠ 0) (perm : ℕ → Equiv.Perm (Fin b)) {α z : ℝ}
    (hz : Fisher.normCdf z = 1 - α) : Tendsto (fun N : ℕ => P.real {ω | ∃ p : ℝ,
      blockTest .direct false b (N * b) (gaussianWidth wx) (gaussianWidth wy) (fun s => X s ω) (fun s => Y s ω) perm = .ok (.val p) ∧ p ≤ α}) atTop
        (𝓝 (1 - Fisher.normCdf (2 * z * Real.sqrt (((b : ℝ) - 3) / b)))) ∧
      (b = 4 → 1 - Fisher.normCdf (2 * z * Real.sqrt (((b : ℝ) - 3) / b)) = α) ∧ (5 ≤ b → α < 1 / 2 → 1 - Fisher.normCdf (2 * z * Real.sqrt (((b : ℝ) - 3) / b)) < α) := by
  obtain ⟨σ, hσ, h1, h0⟩ := sigma hwx hwy h hi hb hv
  have hb4 : (4 : ℝ) ≤ b := by exact_mod_cast hb
  have hb' : (0 : ℝ) < b := by linarith
  have hb3 : (0 : ℝ) < (b : ℝ) - 3 := by linarith
  obtain ⟨DX, x1, -, x3⟩ := theta hwx hwx (selfX h)
  obtain ⟨DY, y1, -, y3⟩ := theta hwy hwy (selfY h)
  have hsq := square_mean hwx hwy h hi hb
  rw [h1, x3, y3, eq_div_iff (by positivity)] at hsq
  have hV : 0 < 8 * DX * DY := by
    have : 0 < σ ^ 2 * (b * ((b : ℝ) - 3)) := by positivity
    linarith
  have e : ∀ (N : ℕ) ω, nullVar .direct b (N * b) (gaussianWidth wx) (gaussianWidth wy) (fun s => X s ω) (fun s => Y s ω) perm =
      8 * ((∑ t ∈ Finset.range N, quadAt wx wx (fun a : Fin b => (X (t * b + a) ω, X (t * b + a) ω))) / N) *
        ((∑ t ∈ Finset.range N, quadAt wy wy (fun a : Fin b => (Y (t * b + a) ω, Y (t * b + a) ω))) / N) := fun N ω => by
    have hdiv : N * b / b = N := Nat.mul_div_cancel _ (by omega)
    unfold nullVar
    simp only [hdiv]
    rfl
  have hmx : ∀ t, Measurable fun ω => quadAt wx wx (fun a : Fin b => (X (t * b + a) ω, X (t * b + a) ω)) := fun t => (quadAt_meas wx wx).comp (tuple_meas (selfX h) fun a : Fin b => t * b + (a : ℕ))
  have hmy : ∀ t, Measurable fun ω => quadAt wy wy (fun a : Fin b => (Y (t * b + a) ω, Y (t * b + a) ω)) := fun t => (quadAt_meas wy wy).comp (tuple_meas (selfY h) fun a : Fin b => t * b + (a : ℕ))
  have lim := reject_limit hwx hwy h hi hb hσ h1 hV (method := .direct) (by decide) perm (fun N => by
    simp only [e]
    exact (((Finset.measurable_fun_sum _ fun t _ => hmx t).div_const _).const_mul _).mul ((Finset.measurable_fun_sum _ fun t _ => hmy t).div_const _)) (by
    simp only [e]
    filter_upwards [block_limit hwx hwx (selfX h) hb, block_limit hwy hwy (selfY h) hb] with ω hx hy
    rw [x3] at hx
    rw [y3] at hy
    exact (hx.const_mul 8).mul hy) hz
  have er : z / (b * σ / Real.sqrt (8 * DX * DY)) = 2 * z * Real.sqrt (((b : ℝ) - 3) / b) := by
    have h8 : 8 * DX * DY = (2 * σ) ^ 2 * (b ^ 2 * (((b : ℝ) - 3) / b)) := by
      have : (b : ℝ) ^ 2 * (((b : ℝ) - 3) / b) = b * ((b : ℝ) - 3) := by field_simp
      rw [this]
      linarith
    rw [h8, Real.sqrt_mul (sq_nonneg _), Real.sqrt_sq (by positivity), Real.sqrt_mul (sq_nonneg _), Real.sqrt_sq hb'.le]
    have := Real.sqrt_pos.2 (div_pos hb3 hb')
    field_simp
  rw [er] at lim
  refine ⟨lim, fun hb0 => ?_, fun h5 hα => ?_⟩
  · have : Real.sqrt (((b : ℝ) - 3) / b) = 1 / 2 := by
      rw [hb0, show (((4 : ℕ) : ℝ) - 3) / (4 : ℕ) = (1 / 2) ^ 2 by norm_num, Real.sqrt_sq (by norm_num)]
    rw [this, show 2 * z * (1 / 2) = z by ring, hz]
    ring
  · have hz0 : 0 < z := Fisher.normCdf_strictMono.lt_iff_lt.1 (by rw [Fisher.normCdf_zero, hz]; linarith)
    have h5' : (5 : ℝ) ≤ b := by exact_mod_cast h5
    have : 1 / 2 < Real.sqrt (((b : ℝ) - 3) / b) := by
      refine Real.lt_sqrt_of_sq_lt ?_
      rw [lt_div_iff₀ hb']
      linarith
    have := Fisher.normCdf_strictMono (show z < 2 * z * Real.sqrt (((b : ℝ) - 3) / b) by nlinarith)
    linarith

end drawn

section examples

/-- Four rows. -/
example : ∃ u : ℝ, ∑ σ : Equiv.Perm (Fin 4), ((uStat (gaussianWidth 1 fun (a : Fin 4) (_ : Fin 1) => (a : ℝ)) (shuffle σ (gaussianWidth 1 fun (a : Fin 4) (_ : Fin 1) => (a : ℝ)))).1.getD 0) ^ 2 =
    (Nat.factorial 4) * (2 * u * u / ((4 : ℕ) * (((4 : ℕ) : ℝ) - 3))) := by
  obtain ⟨u, v, h1, h2, h3⟩ := c188_moment le_rfl (width_symm 1 fun (a : Fin 4) (_ : Fin 1) => (a : ℝ)) (width_symm 1 fun (a : Fin 4) (_ : Fin 1) => (a : ℝ))
  rw [h1] at h2
  cases h2
  exact ⟨u, h3⟩

/-- Independent normal variables and blocks of ten rows. -/
example : ∃ (Ω : Type) (_ : MeasurableSpace Ω) (P : Measure Ω) (X Y : ℕ → Ω → Fin 1 → ℝ) (DX DY : ℝ), 0 < DX ∧ 0 < DY ∧
    Var[fun ω => (uStat (gaussianWidth 1 (upto X 10 ω)) (gaussianWidth 1 (upto Y 10 ω))).1.getD 0; P] = 2 * DX * DY / ((10 : ℕ) * (((10 : ℕ) : ℝ) - 3)) ∧
    Tendsto (fun N : ℕ => P.real {ω | ∃ p : ℝ, blockTest .direct false 10 (N * 10) (gaussianWidth 1) (gaussianWidth 1) (fun s => X s ω) (fun s => Y s ω) (fun _ => 1) =
      .ok (.val p) ∧ p ≤ 1 - Fisher.normCdf 2}) atTop (𝓝 (1 - Fisher.normCdf (2 * 2 * Real.sqrt ((((10 : ℕ) : ℝ) - 3) / (10 : ℕ))))) := by
  obtain ⟨Ω, mΩ, P, hP, X, Y, h, hi, hv⟩ := exSpread
  obtain ⟨DX, DY, x0, y0, hD⟩ := c188_variance one_pos one_pos h hi
  have h4 := (hD 4 le_rfl).2.2
  have hne : DX ≠ 0 ∧ DY ≠ 0 := by
    constructor <;> rintro rfl <;> exact hv (h4.trans (by simp))
  have hx : 0 < DX := lt_of_le_of_ne x0 (Ne.symm hne.1)
  have hy : 0 < DY := lt_of_le_of_ne y0 (Ne.symm hne.2)
  have h10 := (hD 10 (by norm_num)).2.2
  refine ⟨Ω, mΩ, P, X, Y, DX, DY, hx, hy, h10, (c188_direct_false one_pos one_pos h hi (by norm_num) ?_ _ (sub_sub_cancel _ _).symm).1⟩
  rw [h10]
  push_cast
  have : (0 : ℝ) < 2 * DX * DY / (10 * (10 - 3)) := by norm_num; positivity
  exact this.ne'

end examples

end Cdmir.BlockDirect
