import Verif.Props.LocalScore
import Verif.Props.GESConsistent
import Verif.Props.FisherExamples
import Verif.Lemmas.BicGain

/-! Property C163: what a further parent changes in the BIC score; with the correlations of a faithful linear model the score is locally
consistent, and `GES.fit` finds the class of the DAG. -/

set_option linter.unusedSectionVars false

namespace Cdmir.LocalScore
open BigOperators Spec Matrix Graph GES Fisher

section
variable {n : Nat} {C : Matrix (Fin n) (Fin n) ℝ} {R : Fin n → Fin n → Prop}

/-- **C163, the gain.** For positive definite correlations a further parent `i` changes the score of `j` by `- N log (1 - r²) - lambda log N`, `r` the
partial correlation of `i` and `j` given the other parents: the covariance of the residuals over the roots of their variances. -/
theorem c163_gain (hC : C.PosDef) (h1 : ∀ v, C v v = 1) (N : Nat) (lambda : ℝ) {i j : Fin n} {l : List (Fin n)} (hl : (i :: j :: l).Nodup) :
    ∃ (e c : Fin n → ℝ) (s s' : ℝ), Residual C i (fun x => x ∈ l) e ∧ Residual C j (fun x => x ∈ l) c ∧ 0 < covar C e e ∧ 0 < covar C c c ∧
      covar C e c ^ 2 < covar C e e * covar C c c ∧ bic C N lambda j l = .ok s ∧ bic C N lambda j (i :: l) = .ok s' ∧
      s' - s = -(N * Real.log (1 - covar C e c ^ 2 / (covar C e e * covar C c c))) - lambda * Real.log N := by
  obtain ⟨hi, hl⟩ := List.nodup_cons.1 hl
  obtain ⟨hj, hl⟩ := List.nodup_cons.1 hl
  have hij : i ≠ j := fun q => hi (by simp [q])
  have hi : i ∉ l := fun q => hi (by simp [q])
  have hl' : (i :: l).Nodup := List.nodup_cons.2 ⟨hi, hl⟩
  have hj' : j ∉ i :: l := fun q => (List.mem_cons.1 q).elim (fun q => hij q.symm) hj
  obtain ⟨e, he, _⟩ := exists_residual hC hl hi
  obtain ⟨c, hc, hm⟩ := exists_residual hC hl hj
  obtain ⟨hv, hV⟩ := residual_step hC hl hi hj hij he
  have p0 := minor_pos hC l.toFinset
  have p1 := minor_pos hC (insert j l.toFinset)
  have p2 := minor_pos hC (i :: l).toFinset
  have p3 := minor_pos hC (insert j (i :: l).toFinset)
  have hee : covar C e e = C.mulVec e i := covar_residual he he.2.2
  have hcc : covar C c c = C.mulVec c j := covar_residual hc hc.2.2
  have hec : covar C e c = C.mulVec e j := by
    rw [covar_comm (LocalScore.posDef_symm hC)]
    exact covar_residual hc he.2.2
  have hcv : minor C (insert j l.toFinset) / minor C l.toFinset = C.mulVec c j := by rw [hm, mul_div_cancel_left₀ _ p0.ne']
  have hcp : 0 < C.mulVec c j := by rw [← hcv]; positivity
  have hq := div_pos p3 p2
  rw [hV, hcv] at hq
  refine ⟨e, c, _, _, he, hc, hee ▸ hv, hcc ▸ hcp, ?_, bic_minor hC h1 N lambda hl hj, bic_minor hC h1 N lambda hl' hj', ?_⟩
  · rw [hee, hcc, hec]
    have := mul_pos hq hv
    rw [sub_mul, div_mul_cancel₀ _ hv.ne'] at this
    linarith
  · rw [hee, hcc, hec]
    have e1 : 1 - C.mulVec e j ^ 2 / (C.mulVec e i * C.mulVec c j) =
        (minor C (insert j (i :: l).toFinset) / minor C (i :: l).toFinset) / (minor C (insert j l.toFinset) / minor C l.toFinset) := by
      rw [hV, hcv]
      field_simp
    rw [e1, Real.log_div (div_pos p3 p2).ne' (div_pos p1 p0).ne', Real.log_div p3.ne' p2.ne', Real.log_div p1.ne' p0.ne', List.length_cons]
    push_cast
    ring

/-- **C163, no penalty.** With `lambda_value` at most zero no further parent lowers the score, independent or not. -/
theorem c163_unpenalised (hC : C.PosDef) (h1 : ∀ v, C v v = 1) {N : Nat} {lambda : ℝ} (hla : lambda ≤ 0) {i j : Fin n} {l : List (Fin n)}
    (hl : (i :: j :: l).Nodup) : ∃ s s', bic C N lambda j l = .ok s ∧ bic C N lambda j (i :: l) = .ok s' ∧ s ≤ s' := by
  obtain ⟨e, c, s, s', _, _, p1, p2, p3, hs, hs', hg⟩ := c163_gain hC h1 N lambda hl
  refine ⟨s, s', hs, hs', ?_⟩
  have h0 : 0 ≤ covar C e c ^ 2 / (covar C e e * covar C c c) := by positivity
  have h2 : covar C e c ^ 2 / (covar C e e * covar C c c) < 1 := (div_lt_one (mul_pos p1 p2)).2 p3
  have h3 : Real.log (1 - covar C e c ^ 2 / (covar C e e * covar C c c)) ≤ 0 := Real.log_nonpos (by linarith) (by linarith)
  have h4 : 0 ≤ (N : ℝ) * -Real.log (1 - covar C e c ^ 2 / (covar C e e * covar C c c)) := mul_nonneg (Nat.cast_nonneg _) (by linarith)
  have h5 : 0 ≤ -lambda * Real.log N := mul_nonneg (by linarith) (Real.log_natCast_nonneg _)
  linarith

/-- The covariance of the residuals vanishes exactly if the variables are uncorrelated given the others. -/
theorem covar_zero_iff (hC : C.PosDef) {Z : Fin n → Prop} {i j : Fin n} (hi : ¬ Z i) {e c : Fin n → ℝ} (he : Residual C i Z e)
    (hc : Residual C j Z c) : covar C e c = 0 ↔ PartialUncorr C i j Z := by
  rw [covar_comm (LocalScore.posDef_symm hC), covar_residual hc he.2.2]
  refine ⟨fun h => ⟨e, he, h⟩, ?_⟩
  rintro ⟨e', he', h⟩
  rwa [residual_unique hC hi he he']

theorem corrOf_diag (hC : C.PosDef) (v : Fin n) : corrOf C v v = 1 := by
  have : 0 < C v v := hC.diag_pos
  rw [corrOf, of_apply, Real.mul_self_sqrt this.le, div_self this.ne']

/-- **C163, local consistency.** For the correlations of a faithful linear model over a DAG and a positive `lambda_value`, the BIC score never
raises, depends on the parents as a set, is equal on equivalent DAGs, and is locally consistent with the DAG once the number of records is large
enough. -/
theorem c163_consistent (ac : Acyclic R) (hM : LinearModel R C) (hF : Faithful R C) {lambda : ℝ} (hla : 0 < lambda) :
    ∃ N0, ∀ N, N0 ≤ N → ∃ score : Fin n → List (Fin n) → ℝ,
      (∀ j l, l.Nodup → j ∉ l → bic (corrOf C) N lambda j l = .ok (score j l)) ∧ SetScore score ∧ ScoreEquiv score (List.finRange n) ∧
      LocallyConsistent score (List.finRange n) R := by
  have hP := hM.posDef ac
  have hPc := corrOf_posDef hP
  have hd1 := corrOf_diag hP
  have hunc : ∀ {i j : Fin n} {Z : Fin n → Prop}, i ≠ j → ¬ Z i → ¬ Z j → (PartialUncorr (corrOf C) i j Z ↔ DSep R i j Z) := by
    intro i j Z hij hi hj
    rw [corrOf_eq, partialUncorr_rescale (sqrt_diag_ne hP)]
    exact ⟨hF i j Z hij hi hj, markov_residual ac hM hi⟩
  have hone : ∀ t : Fin n × Fin n × Finset (Fin n), ∃ N0, ∀ N, N0 ≤ N → (t.1 :: t.2.1 :: t.2.2.toList).Nodup →
      ¬ DSep R t.1 t.2.1 (fun w => w ∈ t.2.2.toList) → ∀ s s', bic (corrOf C) N lambda t.2.1 t.2.2.toList = .ok s →
      bic (corrOf C) N lambda t.2.1 (t.1 :: t.2.2.toList) = .ok s' → s < s' := by
    rintro ⟨i, j, Z⟩
    by_cases hd : (i :: j :: Z.toList).Nodup ∧ ¬ DSep R i j (fun w => w ∈ Z.toList)
    · obtain ⟨e, c, _, _, he, hc, p1, p2, p3, _⟩ := c163_gain hPc hd1 0 lambda hd.1
      have hi : i ∉ Z.toList := fun q => (List.nodup_cons.1 hd.1).1 (by simp [q])
      have hj : j ∉ Z.toList := (List.nodup_cons.1 (List.nodup_cons.1 hd.1).2).1
      have hij : i ≠ j := fun q => (List.nodup_cons.1 hd.1).1 (by simp [q])
      have hk : covar (corrOf C) e c ≠ 0 := fun q => hd.2 ((hunc hij hi hj).1 ((covar_zero_iff hPc hi he hc).1 q))
      have h0 : 0 < covar (corrOf C) e c ^ 2 / (covar (corrOf C) e e * covar (corrOf C) c c) := by positivity
      have h2 : covar (corrOf C) e c ^ 2 / (covar (corrOf C) e e * covar (corrOf C) c c) < 1 := (div_lt_one (mul_pos p1 p2)).2 p3
      obtain ⟨N0, hN0⟩ := gain_beats_penalty (neg_pos.2 (Real.log_neg (sub_pos.2 h2) (by linarith))) hla
      refine ⟨N0, fun N hN _ _ s s' hs hs' => ?_⟩
      obtain ⟨e', c', t, t', he', hc', _, _, _, ht, ht', hg⟩ := c163_gain hPc hd1 N lambda hd.1
      obtain rfl := residual_unique hPc hi he he'
      obtain rfl := residual_unique hPc hj hc hc'
      simp only at hs hs'
      rw [ht] at hs
      rw [ht'] at hs'
      obtain rfl := Except.ok.inj hs
      obtain rfl := Except.ok.inj hs'
      have := hN0 N hN
      linarith
    · exact ⟨0, fun N _ h1 h2 => absurd ⟨h1, h2⟩ hd⟩
  choose F hF' using hone
  refine ⟨max (Finset.univ.sup F) 2, fun N hN => ?_⟩
  obtain ⟨score, hv, hset, heq⟩ := c63_bic hPc hd1 N lambda
  refine ⟨score, hv, hset, heq, ?_⟩
  intro i _ j _ hij l hl _ hil hjl
  have hnd : (i :: j :: l).Nodup := List.nodup_cons.2 ⟨fun q => (List.mem_cons.1 q).elim hij hil, List.nodup_cons.2 ⟨hjl, hl⟩⟩
  have hil' : (i :: l).Nodup := List.nodup_cons.2 ⟨hil, hl⟩
  have hj' : j ∉ i :: l := fun q => (List.mem_cons.1 q).elim (fun q => hij q.symm) hjl
  constructor
  · intro hsep
    obtain ⟨e, c, s, s', he, hc, _, _, _, hs, hs', hg⟩ := c163_gain hPc hd1 N lambda hnd
    have hk : covar (corrOf C) e c = 0 := (covar_zero_iff hPc (Z := fun x => x ∈ l) hil he hc).2 ((hunc hij hil hjl).2 hsep)
    rw [hv j l hl hjl] at hs
    rw [hv j (i :: l) hil' hj'] at hs'
    rw [Except.ok.inj hs, Except.ok.inj hs']
    rw [hk] at hg
    simp only [ne_eq, OfNat.ofNat_ne_zero, not_false_eq_true, zero_pow, zero_div, sub_zero, Real.log_one, mul_zero, neg_zero, zero_sub] at hg
    have hN2 : (1 : ℝ) < N := by
      have : 2 ≤ N := (le_max_right _ _).trans hN
      exact_mod_cast this
    have := mul_pos hla (Real.log_pos hN2)
    linarith
  · intro hsep
    have hperm : l.Perm l.toFinset.toList := (List.perm_ext_iff_of_nodup hl (Finset.nodup_toList _)).2 fun a => by simp
    have e1 := hset j l l.toFinset.toList hl (Finset.nodup_toList _) (fun x => hperm.mem_iff)
    have e2 := hset j (i :: l) (i :: l.toFinset.toList) hil' ((hperm.cons i).nodup_iff.1 hil') (fun x => (hperm.cons i).mem_iff)
    rw [e1, e2]
    refine hF' (i, j, l.toFinset) N ((Finset.le_sup (Finset.mem_univ _)).trans ((le_max_left _ _).trans hN))
      (((hperm.cons j).cons i).nodup_iff.1 hnd) (fun h => hsep ((dsep_congr (fun w => hperm.mem_iff) i j).2 h)) _ _
      (hv j _ (Finset.nodup_toList _) (fun q => hjl (hperm.mem_iff.2 q))) (hv j _ ((hperm.cons i).nodup_iff.1 hil') (fun q => hj' ((hperm.cons i).mem_iff.2 q)))

/-- **C163, GES.** With the BIC score on the correlations of a faithful linear model over a DAG with at most three variables, `GES.fit` with the default
`max_parents` (n / 2) or more returns the completed PDAG of that DAG and its score, once the number of records is large enough. -/
theorem c163_ges (h3 : n ≤ 3) (ac : Acyclic R) (hM : LinearModel R C) (hF : Faithful R C) {lambda : ℝ} (hla : 0 < lambda)
    {so : List (Fin n) → List (Fin n)} (hso : ∀ l, (so l).Perm l) {maxP : ℚ} (hmaxP : (n : ℚ) / 2 ≤ maxP) :
    ∃ N0, ∀ N, N0 ≤ N → ∃ score : Fin n → List (Fin n) → ℝ,
      (∀ j l, l.Nodup → j ∉ l → bic (corrOf C) N lambda j l = .ok (score j l)) ∧
      ∃ (g : Graph (Fin n)) (s : ℝ) (M : Nat), (∀ m, M ≤ m → fit m so maxP score (List.finRange n) = .ok (g, s)) ∧
        g.nodes = List.finRange n ∧ IsCpdag R g ∧ DagScore score (List.finRange n) R s := by
  obtain ⟨N0, h⟩ := c163_consistent ac hM hF hla
  refine ⟨N0, fun N hN => ?_⟩
  obtain ⟨score, hv, hset, heq, hlc⟩ := h N hN
  have hmax : ((List.finRange n).length : ℚ) ≤ maxP + 2 := by
    rw [List.length_finRange]
    have : (n : ℚ) ≤ 3 := by exact_mod_cast h3
    linarith
  exact ⟨score, hv, c162_three (List.nodup_finRange n) (by rw [List.length_finRange]; exact h3) hso hset heq hmax ac
    (fun a b _ => ⟨List.mem_finRange a, List.mem_finRange b⟩) hlc⟩

/-- **C163, GES on more variables**, given that `dag2cpdag` never chooses a direction that is missing in some member of the class in this run. (That
this does not happen with the BIC score is not proved.) -/
theorem c163_ges_partial (ac : Acyclic R) (hM : LinearModel R C) (hF : Faithful R C) {lambda : ℝ} (hla : 0 < lambda)
    {so : List (Fin n) → List (Fin n)} (hso : ∀ l, (so l).Perm l) {maxP : ℚ} (hmaxP : (n : ℚ) ≤ maxP + 2) :
    ∃ N0, ∀ N, N0 ≤ N → ∃ score : Fin n → List (Fin n) → ℝ,
      (∀ j l, l.Nodup → j ∉ l → bic (corrOf C) N lambda j l = .ok (score j l)) ∧
      ∃ g0 : Graph (Fin n), ReachableSimple .pdag g0 ∧ g0.nodes = List.finRange n ∧ (∀ u v, ¬ Conn g0 u v) ∧
        ((∀ d c, Visited so maxP score (g0, ((List.finRange n).map (fun v => score v [])).sum) d → dag2cpdag so d = .ok c →
            ∀ D, InClass (Dir d) D → ∀ u v, Dir c u v → D u v) →
          ∃ (g : Graph (Fin n)) (s : ℝ) (M : Nat), (∀ m, M ≤ m → fit m so maxP score (List.finRange n) = .ok (g, s)) ∧
            g.nodes = List.finRange n ∧ IsCpdag R g ∧ DagScore score (List.finRange n) R s) := by
  obtain ⟨N0, h⟩ := c163_consistent ac hM hF hla
  refine ⟨N0, fun N hN => ?_⟩
  obtain ⟨score, hv, hset, heq, hlc⟩ := h N hN
  exact ⟨score, hv, c162_fit_partial (List.nodup_finRange n) hso hset heq (by rw [List.length_finRange]; exact hmaxP) ac
    (fun a b _ => ⟨List.mem_finRange a, List.mem_finRange b⟩) hlc⟩

end

/-- The chain 0 -> 1 -> 2. -/
example := c163_gain (corrOf_posDef exPosDef) (corrOf_diag exPosDef) 100 1 (i := 0) (j := 2) (l := [1]) (by decide)
example := c163_unpenalised (corrOf_posDef exPosDef) (corrOf_diag exPosDef) (N := 100) (lambda := 0) le_rfl (i := 0) (j := 2) (l := [1]) (by decide)
example := c163_consistent exAcyclic exLinear exFaithful (lambda := 1) one_pos
example := c163_ges (by decide) exAcyclic exLinear exFaithful (lambda := 1) one_pos (so := id) (fun _ => List.Perm.refl _) (maxP := 3 / 2) (by norm_num)
example := c163_ges_partial exAcyclic exLinear exFaithful (lambda := 1) one_pos (so := id) (fun _ => List.Perm.refl _) (maxP := 3 / 2) (by norm_num)

end Cdmir.LocalScore
