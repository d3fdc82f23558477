import Verif.Lemmas.LocalScore
import Verif.Lemmas.Topo
import Verif.Props.GESValid
import Mathlib.Algebra.Order.Star.Real

/-! C63: the BIC and BDeu scores are equal on equivalent DAGs. -/

namespace Cdmir
open BigOperators Spec LocalScore

section BIC
variable {n : Nat}

/-- C63: for a positive definite correlation matrix the local score is minus the sample count times the logarithm of the ratio of
two determinants, over the family and over the parents, minus the penalty for the parents. -/
theorem c63_bic_value {C : Matrix (Fin n) (Fin n) ℝ} (hC : C.PosDef) (h1 : ∀ i, C i i = 1) (N : Nat) (lambda : ℝ) {j : Fin n}
    {l : List (Fin n)} (hl : l.Nodup) (hj : j ∉ l) :
    bic C N lambda j l = .ok (-(N * Real.log
      ((C.submatrix (fun x : {x // x = j ∨ x ∈ l} => x.1) (fun x => x.1)).det / (C.submatrix (fun x : {x // x ∈ l} => x.1) (fun x => x.1)).det) +
      Real.log N * l.length * lambda)) := by
  rw [bic_minor hC h1 N lambda hl hj, ← Real.log_div (minor_pos hC _).ne' (minor_pos hC _).ne']
  have e1 : minor C (insert j l.toFinset) = (C.submatrix (fun x : {x // x = j ∨ x ∈ l} => x.1) (fun x => x.1)).det := by
    unfold minor
    rw [← Matrix.det_submatrix_equiv_self (Equiv.subtypeEquivRight (p := fun x => x = j ∨ x ∈ l) (q := fun x => x ∈ insert j l.toFinset) (by simp))]
    rfl
  have e2 : minor C l.toFinset = (C.submatrix (fun x : {x // x ∈ l} => x.1) (fun x => x.1)).det := by
    unfold minor
    rw [← Matrix.det_submatrix_equiv_self (Equiv.subtypeEquivRight (p := fun x => x ∈ l) (q := fun x => x ∈ l.toFinset) (by simp))]
    rfl
  rw [e1, e2]

/-- C63: the score never raises, depends on the parents as a set, and is equal on equivalent DAGs, for every sample count and
every `lambda_value`. -/
theorem c63_bic {C : Matrix (Fin n) (Fin n) ℝ} (hC : C.PosDef) (h1 : ∀ i, C i i = 1) (N : Nat) (lambda : ℝ) :
    ∃ score : Fin n → List (Fin n) → ℝ, (∀ j l, l.Nodup → j ∉ l → bic C N lambda j l = .ok (score j l)) ∧ SetScore score ∧
      ScoreEquiv score (List.finRange n) := by
  let F : Finset (Fin n) → ℝ := fun S => -(N * Real.log (minor C S)) - Real.log N * lambda * ∑ k ∈ Finset.range S.card, (k : ℝ)
  refine ⟨fun j l => if j ∈ l then 0 else F (insert j l.toFinset) - F l.toFinset, fun j l hl hj => ?_, ?_, ?_⟩
  · rw [bic_minor hC h1 N lambda hl hj]
    congr 1
    simp only [hj, if_false, F]
    rw [Finset.card_insert_of_notMem (by simpa using hj), Finset.sum_range_succ, List.toFinset_card_of_nodup hl]
    ring
  · intro j l l' hl hl' he
    have : l.toFinset = l'.toFinset := by ext x; simp [he]
    simp only [he, this]
  · refine diffScore_equiv (List.nodup_finRange n) F fun j _ l _ _ hj => ?_
    simp only [hj, if_false]

/-- C56 and C63 together: `GES.fit` with the BIC score, for at most three variables and a positive definite correlation matrix, returns
the completed PDAG of a DAG and its score, and no DAG of its class gets better by removing an edge. For more variables the proviso of
`c56_fit_partial` remains. -/
theorem c56_bic_partial {C : Matrix (Fin n) (Fin n) ℝ} (hC : C.PosDef) (h1 : ∀ i, C i i = 1) (N : Nat) (lambda : ℝ) (h3 : n ≤ 3)
    {so : List (Fin n) → List (Fin n)} (hso : ∀ l, (so l).Perm l) (maxP : ℚ) :
    ∃ score : Fin n → List (Fin n) → ℝ, (∀ j l, l.Nodup → j ∉ l → bic C N lambda j l = .ok (score j l)) ∧
      ∃ (g : Graph (Fin n)) (s : ℝ) (M : Nat) (G : Fin n → Fin n → Prop), (∀ m, M ≤ m → GES.fit m so maxP score (List.finRange n) = .ok (g, s)) ∧
        Acyclic G ∧ IsCpdag G g ∧ DagScore score (List.finRange n) G s ∧
        ∀ D, InClass G D → ∀ i j, D i j → ∀ t, DagScore score (List.finRange n) (fun a b => D a b ∧ ¬(a = i ∧ b = j)) t → t ≤ s := by
  obtain ⟨score, h2, hs, he⟩ := c63_bic hC h1 N lambda
  obtain ⟨g, s, M, G, e, -, k⟩ := c56_three_partial (List.nodup_finRange n) (by simpa using h3) hso hs he maxP
  exact ⟨score, h2, g, s, M, G, e, k⟩

/-- A correlation matrix with 1/2 off the diagonal. -/
noncomputable def exCorr : Matrix (Fin 3) (Fin 3) ℝ := (1 / 2 : ℝ) • (1 + Matrix.vecMulVec (fun _ => 1) (star fun _ => 1))

theorem exCorr_pos : exCorr.PosDef :=
  (Matrix.PosDef.one.add_posSemidef (Matrix.posSemidef_vecMulVec_self_star _)).smul (by norm_num)

theorem exCorr_one (i : Fin 3) : exCorr i i = 1 := by
  simp only [exCorr, Matrix.smul_apply, Matrix.add_apply, Matrix.one_apply_eq, Matrix.vecMulVec_apply]
  norm_num

example := c63_bic exCorr_pos exCorr_one 100 1
example := c56_bic_partial exCorr_pos exCorr_one 100 1 le_rfl (so := id) (fun l => List.Perm.refl l) (3 / 2)
example : exCorr 0 1 = 1 / 2 := by
  simp only [exCorr, Matrix.smul_apply, Matrix.add_apply, Matrix.vecMulVec_apply]
  norm_num

/-- The empty set of parents is scored without the minus sign (bic_score.py L27): on a covariance matrix instead of a correlation matrix
the score would not be equal on equivalent DAGs. Here `0 -> 1` and `1 -> 0` with variances 1 and 2, uncorrelated. -/
theorem c63_bic_sign : ∃ (C : Matrix (Fin 2) (Fin 2) ℝ) (a b c d : ℝ), C.PosDef ∧
    bic C 1 1 0 [] = .ok a ∧ bic C 1 1 1 [0] = .ok b ∧ bic C 1 1 1 [] = .ok c ∧ bic C 1 1 0 [1] = .ok d ∧ a + b ≠ c + d := by
  have hC : (Matrix.diagonal (fun i : Fin 2 => (i.val : ℝ) + 1)).PosDef := Matrix.PosDef.diagonal fun i => by positivity
  refine ⟨Matrix.diagonal fun i => (i.val : ℝ) + 1, 0, -Real.log 2, Real.log 2, 0, hC, ?_, ?_, ?_, ?_, ?_⟩
  · simp [bic, pure, Except.pure]
  · simp [bic, blockAt, rowAt, Matrix.det_unique, Matrix.mul_apply, pure, Except.pure]
    norm_num
  · simp [bic, pure, Except.pure]
    norm_num
  · simp [bic, blockAt, rowAt, Matrix.det_unique, Matrix.mul_apply, pure, Except.pure]
  · have := Real.log_pos (show (1 : ℝ) < 2 by norm_num)
    intro h
    linarith

end BIC

section BDeu
variable {K : Type} [Field K] [LinearOrder K] [IsStrictOrderedRing K] {N n : Nat}

omit [LinearOrder K] [IsStrictOrderedRing K] in
/-- C68, finding: every DAG has a variable without parents, and its local score raises: no DAG can be scored. -/
theorem c68_bdeu_raises (log lgamma : K → K) (alpha s : K) (data : Fin N → Fin n → Int) (hN : N ≠ 0) (hn : n ≠ 0)
    {D : Fin n → Fin n → Prop} (ac : Acyclic D) :
    ∃ i, (∀ j, ¬ D j i) ∧ ∀ pa : List (Fin n), (∀ j, j ∈ pa ↔ D j i) → bdeu log lgamma alpha s data i pa = .error .value := by
  obtain ⟨i, hi⟩ : ∃ i, ∀ j, ¬ D j i := by
    obtain ⟨i, -, hi⟩ := Graph.exists_minimal (R := D) (List.finRange n) (fun u v _ => List.mem_finRange u) ac (fun _ => True) ⟨⟨0, by omega⟩, trivial⟩
    exact ⟨i, fun j h => hi j h trivial⟩
  refine ⟨i, hi, fun pa hpa => ?_⟩
  have : pa = [] := List.eq_nil_iff_forall_not_mem.2 fun x hx => hi x ((hpa x).1 hx)
  unfold bdeu
  rw [if_pos ⟨by rw [this]; rfl, hN⟩]
  rfl

/-- C68: with the value meant for a variable without parents (one group with all rows) the score depends on the parents as a set
and is equal on equivalent DAGs; for a variable with parents the code returns this value. It holds for every function in the place
of `log` and `lgamma`. Missing: the code raises on the empty set of parents, `c68_bdeu_raises`. -/
theorem c68_bdeu_partial (log lgamma : K → K) (alpha s : K) (data : Fin N → Fin n → Int) :
    SetScore (bdeuValue log lgamma alpha s data) ∧ ScoreEquiv (bdeuValue log lgamma alpha s data) (List.finRange n) ∧
      ∀ i pa, pa ≠ [] → bdeu log lgamma alpha s data i pa = .ok (bdeuValue log lgamma alpha s data i pa) := by
  refine ⟨?_, ?_, ?_⟩
  · intro j l l' hl hl' he
    have hp : l.Perm l' := (List.perm_ext_iff_of_nodup hl hl').2 he
    rw [bdeuValue_diff, bdeuValue_diff, cellSum_perm lgamma alpha data (hp.cons j), cellSum_perm lgamma alpha data hp, hp.length_eq]
  · let F : Finset (Fin n) → K := fun S => cellSum lgamma alpha data S.toList +
      ∑ k ∈ Finset.range S.card, ((k : K) * log (s / ((N : K) - 1)) + (((N : K) - 1) - (k : K)) * log (1 - s / ((N : K) - 1)))
    refine diffScore_equiv (List.nodup_finRange n) F fun j _ l hl _ hj => ?_
    have h1 : l.toFinset.toList.Perm l := (List.perm_ext_iff_of_nodup (Finset.nodup_toList _) hl).2 (by simp)
    have h2 : (insert j l.toFinset).toList.Perm (j :: l) :=
      (List.perm_ext_iff_of_nodup (Finset.nodup_toList _) (List.nodup_cons.2 ⟨hj, hl⟩)).2 (by simp)
    simp only [F]
    rw [bdeuValue_diff, Finset.card_insert_of_notMem (by simpa using hj), Finset.sum_range_succ, List.toFinset_card_of_nodup hl,
      cellSum_perm lgamma alpha data h1, cellSum_perm lgamma alpha data h2]
    ring
  · intro i pa h
    unfold bdeu
    rw [if_neg fun q => h (List.length_eq_zero_iff.1 q.1)]
    rfl

end BDeu

/-- Four rows of two binary columns. -/
def exRows : Fin 4 → Fin 2 → Int := fun t i => if i = 0 then t.val / 2 else t.val % 2

example : bdeuValue (K := ℚ) (fun x => x - 1) (fun x => x * x) 1 1 exRows 1 [0] = -22 / 3 := by decide +kernel

end Cdmir
