import Verif.Lemmas.Trail
import Verif.Lemmas.DSepFacts
import Verif.Spec.LinearModel
import Mathlib.LinearAlgebra.Matrix.PosDef
import Mathlib.LinearAlgebra.Matrix.NonsingularInverse
import Mathlib.LinearAlgebra.Matrix.ToLinearEquiv
import Mathlib.Order.WellFounded

/-!
The global Markov property of linear models: d-separated variables have partial covariance zero.
-/

set_option linter.unusedSectionVars false

namespace Cdmir
namespace Spec

section reach
variable {V : Type} {R : V → V → Prop} {Z : V → Prop} {x y : V}

abbrev Reach (R : V → V → Prop) (Z : V → Prop) (x : V) (s : V × Bool) : Prop := Relation.ReflTransGen (Move R Z) (x, true) s

theorem AncZ.self {k : V} (h : Z k) : AncZ R Z k := ⟨k, h, Relation.ReflTransGen.refl⟩

/-- Upwards from `x` to an ancestor of `x` that is no ancestor of `Z`. -/
theorem reach_up {k : V} (h : Desc R k x) (hn : ¬ AncZ R Z k) : Reach R Z x (k, true) := by
  induction h using Relation.ReflTransGen.head_induction_on with
  | refl => exact Relation.ReflTransGen.refl
  | head e _ ih =>
    rename_i a c _
    have hc : ¬ AncZ R Z c := fun h => hn (h.of_edge e)
    exact (ih hc).tail (Move.up_pa (fun h => hc (AncZ.self h)) e)

/-- Downwards to a descendant, from a node that is no ancestor of `Z`. -/
theorem reach_down {k y : V} {b : Bool} (hr : Reach R Z x (k, b)) (h : Desc R k y) (hn : ¬ AncZ R Z k) :
    ∃ b', Reach R Z x (y, b') := by
  induction h using Relation.ReflTransGen.head_induction_on generalizing b with
  | refl => exact ⟨b, hr⟩
  | head e hcy ih =>
    rename_i a c
    by_cases hc : AncZ R Z c
    · exact absurd (hc.of_edge e) hn
    · refine ih (b := false) ?_ hc
      have hz : ¬ Z a := fun h => hn (AncZ.self h)
      cases b with
      | true => exact hr.tail (Move.up_ch hz e)
      | false => exact hr.tail (Move.down_ch hz e)

/-- The ancestors of `x`, `y` and `Z`. -/
def Anc (R : V → V → Prop) (Z : V → Prop) (x y v : V) : Prop := ∃ w, (w = x ∨ w = y ∨ Z w) ∧ Desc R v w

theorem Anc.of_edge {u v : V} (h : Anc R Z x y v) (e : R u v) : Anc R Z x y u := by
  obtain ⟨w, hw, hd⟩ := h
  exact ⟨w, hw, Relation.ReflTransGen.head e hd⟩

/-- From a node in the ancestral set that is reached, its parents are reached unless `y` is. -/
theorem reach_parent {k v : V} {b : Bool} (hy : ∀ b, ¬ Reach R Z x (y, b)) (hk : Anc R Z x y k)
    (hr : Reach R Z x (k, b)) (hb : b = true → ¬ Z k) (e : R v k) : Reach R Z x (v, true) := by
  by_cases ha : AncZ R Z k
  · cases b with
    | true => exact hr.tail (Move.up_pa (hb rfl) e)
    | false => exact hr.tail (Move.down_pa ha e)
  · have hz : ¬ Z k := fun h => ha (AncZ.self h)
    obtain ⟨w, hw | hw | hw, hd⟩ := hk
    · subst hw
      exact (reach_up hd ha).tail (Move.up_pa hz e)
    · subst hw
      obtain ⟨b', h⟩ := reach_down hr hd ha
      exact absurd h (hy b')
    · exact absurd ⟨w, hw, hd⟩ ha

/-- The nodes reached are closed under moral adjacency in the ancestral set. -/
theorem reach_moral {j k v : V} (hy : ∀ b, ¬ Reach R Z x (y, b)) (hk : Anc R Z x y k) {b : Bool}
    (hr : Reach R Z x (j, b)) (hj : ¬ Z j) (h1 : k = j ∨ R j k) (h2 : k = v ∨ R v k) : ∃ b', Reach R Z x (v, b') := by
  have hd : ∀ c, R j c → Reach R Z x (c, false) := by
    intro c e
    cases b with
    | true => exact hr.tail (Move.up_ch hj e)
    | false => exact hr.tail (Move.down_ch hj e)
  rcases h1 with rfl | h1
  · rcases h2 with rfl | h2
    · exact ⟨b, hr⟩
    · exact ⟨true, reach_parent hy hk hr (fun _ => hj) h2⟩
  · rcases h2 with rfl | h2
    · exact ⟨false, hd _ h1⟩
    · exact ⟨true, reach_parent hy hk (hd _ h1) (by simp) h2⟩

end reach

section linear
variable {V : Type} [Fintype V] [DecidableEq V] {R : V → V → Prop} {B : Matrix V V ℝ}

theorem Acyclic.wf (ac : Acyclic R) : WellFounded R := by
  have h : WellFounded (Relation.TransGen R) := by
    have : IsTrans V (Relation.TransGen R) := ⟨fun _ _ _ => Relation.TransGen.trans⟩
    have : Std.Irrefl (Relation.TransGen R) := ⟨ac⟩
    exact Finite.wellFounded_of_trans_of_irrefl _
  exact Subrelation.wf (fun h => Relation.TransGen.single h) h

/-- A solution of the equations without error is zero, on every set closed under parents. -/
theorem solve_zero (ac : Acyclic R) (hB : ∀ v u, B v u ≠ 0 → R u v) {S : V → Prop} (hS : ∀ u v, R u v → S v → S u) {w : V → ℝ}
    (hw : ∀ k, S k → ((1 - B).mulVec w) k = 0) (k : V) (hk : S k) : w k = 0 := by
  induction k using ac.wf.induction with
  | h k ih =>
    have h := hw k hk
    rw [Matrix.sub_mulVec, Matrix.one_mulVec, Pi.sub_apply, sub_eq_zero] at h
    rw [h, Matrix.mulVec, dotProduct]
    refine Finset.sum_eq_zero fun j _ => ?_
    by_cases hj : B k j = 0
    · rw [hj, zero_mul]
    · have e := hB k j hj
      rw [ih j e (hS _ _ e hk), mul_zero]

theorem W_ne {k j : V} (hB : ∀ v u, B v u ≠ 0 → R u v) (h : (1 - B) k j ≠ 0) : k = j ∨ R j k := by
  by_cases e : k = j
  · exact Or.inl e
  · right
    refine hB _ _ fun h0 => h ?_
    rw [Matrix.sub_apply, Matrix.one_apply_ne e, h0, sub_zero]

/-- **Global Markov property.** In a linear model over a DAG there are, for d-separated `x` and `y`, coefficients on `x` and `Z` of a variable whose
covariance with `x` is one and that is uncorrelated with `y` and with `Z`. -/
theorem markov {C : Matrix V V ℝ} (ac : Acyclic R) (hC : LinearModel R C) {Z : V → Prop} {x y : V} (hx : ¬ Z x)
    (hd : DSep R x y Z) : ∃ c : V → ℝ, (∀ v, c v ≠ 0 → v = x ∨ Z v) ∧ C.mulVec c x = 1 ∧ C.mulVec c y = 0 ∧
      ∀ v, Z v → C.mulVec c v = 0 := by
  classical
  obtain ⟨B, d, hB, hpos, hCB⟩ := hC
  have hy : ∀ b, ¬ Reach R Z x (y, b) := by
    intro b h
    obtain ⟨p, hp, hnb⟩ := (reach_iff_path (R := R) (Z := Z) ac.asymm hx).1 ⟨b, h⟩
    exact hnb (hd p hp)
  set W : Matrix V V ℝ := 1 - B with hW
  let S : V → Prop := Anc R Z x y
  have hS : ∀ u v, R u v → S v → S u := fun u v e h => h.of_edge e
  let A : V → Prop := fun v => S v ∧ ¬ Z v ∧ ∃ b, Reach R Z x (v, b)
  have hAx : A x := ⟨⟨x, Or.inl rfl, Relation.ReflTransGen.refl⟩, hx, true, Relation.ReflTransGen.refl⟩
  let p : V → ℝ := fun k => if S k then 1 / d k else 0
  have hp0 : ∀ k, 0 ≤ p k := fun k => by
    simp only [p]; split_ifs
    · exact (one_div_pos.2 (hpos k)).le
    · exact le_rfl
  let a : V → ℝ := fun i => if A i then 1 else 0
  let N : Matrix V V ℝ := W.transpose * Matrix.diagonal p * W
  let Q : Matrix V V ℝ := Matrix.diagonal a * N * Matrix.diagonal a + Matrix.diagonal (fun i => 1 - a i)
  have hNq : ∀ t : V → ℝ, dotProduct t (N.mulVec t) = ∑ k, p k * (W.mulVec t k) ^ 2 := by
    intro t
    simp only [N]
    rw [← Matrix.mulVec_mulVec, ← Matrix.mulVec_mulVec, Matrix.dotProduct_mulVec, Matrix.vecMul_transpose, dotProduct]
    refine Finset.sum_congr rfl fun k _ => ?_
    rw [Matrix.mulVec_diagonal]; ring
  have hdm : ∀ (f t : V → ℝ), (Matrix.diagonal f).mulVec t = fun i => f i * t i := by
    intro f t; ext i; rw [Matrix.mulVec_diagonal]
  have hQv : ∀ t : V → ℝ, ∀ i, Q.mulVec t i = a i * N.mulVec (fun j => a j * t j) i + (1 - a i) * t i := by
    intro t i
    simp only [Q]
    rw [Matrix.add_mulVec, Pi.add_apply, ← Matrix.mulVec_mulVec, ← Matrix.mulVec_mulVec, hdm, hdm, hdm]
  have haa : ∀ i, a i * a i = a i := by intro i; simp only [a]; split_ifs <;> simp
  -- a vector with `Q t` known is supported on `A` where `Q t` vanishes outside
  have hsup : ∀ t : V → ℝ, (∀ i, ¬ A i → Q.mulVec t i = 0) → (∀ i, ¬ A i → t i = 0) := by
    intro t h i hi
    have := h i hi
    rw [hQv] at this
    simpa [a, hi] using this
  have hat : ∀ t : V → ℝ, (∀ i, ¬ A i → t i = 0) → (fun j => a j * t j) = t := by
    intro t h
    ext j
    by_cases hj : A j
    · simp [a, hj]
    · simp [a, hj, h j hj]
  have hquad : ∀ t : V → ℝ, (∀ i, ¬ A i → t i = 0) → dotProduct t (Q.mulVec t) = ∑ k, p k * (W.mulVec t k) ^ 2 := by
    intro t h
    rw [← hNq]
    unfold dotProduct
    refine Finset.sum_congr rfl fun i _ => ?_
    rw [hQv, hat t h]
    by_cases hi : A i
    · simp [a, hi]
    · simp [h i hi]
  have hzero : ∀ t : V → ℝ, (∀ i, ¬ A i → t i = 0) → ∑ k, p k * (W.mulVec t k) ^ 2 = 0 → t = 0 := by
    intro t h h0
    have hk : ∀ k, S k → W.mulVec t k = 0 := by
      intro k hk
      have := (Finset.sum_eq_zero_iff_of_nonneg (fun k _ => mul_nonneg (hp0 k) (sq_nonneg _))).1 h0 k (Finset.mem_univ _)
      have hpk : p k ≠ 0 := by simp only [p, if_pos hk]; exact (one_div_pos.2 (hpos k)).ne'
      simpa [hpk] using this
    ext i
    by_cases hi : A i
    · exact solve_zero ac hB hS hk i hi.1
    · exact h i hi
  have hdet : Q.det ≠ 0 := by
    intro h0
    obtain ⟨t, ht, hQt⟩ := Matrix.exists_mulVec_eq_zero_iff.2 h0
    have hs := hsup t (fun i _ => by rw [hQt]; rfl)
    have hq := hquad t hs
    rw [hQt, dotProduct_zero] at hq
    exact ht (hzero t hs hq.symm)
  let t : V → ℝ := Q⁻¹.mulVec (Pi.single x 1)
  have hQt : Q.mulVec t = Pi.single x 1 := by
    simp only [t]
    rw [Matrix.mulVec_mulVec, Matrix.mul_nonsing_inv _ (isUnit_iff_ne_zero.2 hdet), Matrix.one_mulVec]
  have hs : ∀ i, ¬ A i → t i = 0 := hsup t fun i hi => by
    rw [hQt, Pi.single_eq_of_ne]
    rintro rfl; exact hi hAx
  have htx : t x = ∑ k, p k * (W.mulVec t k) ^ 2 := by
    rw [← hquad t hs, hQt, dotProduct_single, mul_one]
  have htx0 : t x ≠ 0 := by
    intro h0
    have := hzero t hs (htx ▸ h0)
    rw [this, Matrix.mulVec_zero] at hQt
    have := congrFun hQt x
    simp at this
  -- the covariances of the new variable are `t`
  let c : V → ℝ := N.mulVec t
  have hcA : ∀ i, A i → c i = if i = x then 1 else 0 := by
    intro i hi
    have h := congrFun hQt i
    rw [hQv, hat t hs] at h
    simp only [a, if_pos hi, one_mul, sub_self, zero_mul, add_zero] at h
    rw [show c i = N.mulVec t i from rfl, h, Pi.single_apply]
  have hc0 : ∀ v, v ≠ x → ¬ Z v → c v = 0 := by
    intro v hv hz
    by_cases hA : A v
    · rw [hcA v hA, if_neg hv]
    · have e : c v = ∑ k, W k v * (p k * ∑ j, W k j * t j) := by
        simp only [c, N]
        rw [← Matrix.mulVec_mulVec, ← Matrix.mulVec_mulVec, Matrix.mulVec, dotProduct]
        refine Finset.sum_congr rfl fun k _ => ?_
        rw [Matrix.mulVec_diagonal]; rfl
      rw [e]
      refine Finset.sum_eq_zero fun k _ => ?_
      by_cases h1 : W k v = 0
      · rw [h1, zero_mul]
      by_cases h2 : S k
      · have : ∑ j, W k j * t j = 0 := by
          refine Finset.sum_eq_zero fun j _ => ?_
          by_cases h3 : W k j = 0
          · rw [h3, zero_mul]
          by_cases h4 : A j
          · exfalso
            obtain ⟨_, hzj, b, hr⟩ := h4
            have hkv := W_ne hB h1
            refine hA ⟨?_, hz, reach_moral hy h2 hr hzj (W_ne hB h3) hkv⟩
            rcases hkv with rfl | e
            · exact h2
            · exact hS _ _ e h2
          · rw [hs j h4, mul_zero]
        rw [this, mul_zero, mul_zero]
      · simp [p, h2]
  have hcov : ∀ k, S k → C.mulVec c k = t k := by
    intro k hk
    have h := solve_zero ac hB hS (w := C.mulVec c - t) (fun k hk => ?_) k hk
    · rwa [Pi.sub_apply, sub_eq_zero] at h
    · rw [← hW, Matrix.mulVec_sub, Pi.sub_apply, sub_eq_zero]
      simp only [c, N]
      rw [Matrix.mulVec_mulVec, Matrix.mulVec_mulVec, ← Matrix.mul_assoc, ← Matrix.mul_assoc, hCB,
        Matrix.diagonal_mul_diagonal, ← Matrix.mulVec_mulVec, Matrix.mulVec_diagonal]
      simp only [p, if_pos hk]
      rw [mul_one_div_cancel (hpos k).ne', one_mul]
  have hy' : ¬ A y := fun h => h.2.2.elim fun b hb => hy b hb
  refine ⟨fun v => c v / t x, fun v hv => ?_, ?_, ?_, fun v hv => ?_⟩
  · by_contra hn
    obtain ⟨h1, h2⟩ := not_or.1 hn
    exact hv (by simp only [hc0 v h1 h2, zero_div])
  all_goals
    have hsc : (fun v => c v / t x) = (t x)⁻¹ • c := by ext v; simp [div_eq_inv_mul]
    rw [hsc, Matrix.mulVec_smul, Pi.smul_apply, smul_eq_mul, hcov]
  · rw [inv_mul_cancel₀ htx0]
  · exact hAx.1
  · rw [hs y hy', mul_zero]
  · exact ⟨y, Or.inr (Or.inl rfl), Relation.ReflTransGen.refl⟩
  · rw [hs v (fun h => h.2.1 hv), mul_zero]
  · exact ⟨v, Or.inr (Or.inr hv), Relation.ReflTransGen.refl⟩

end linear
end Spec
end Cdmir
