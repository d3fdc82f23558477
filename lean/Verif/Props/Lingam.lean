import Verif.Lemmas.Lingam
import Verif.Lemmas.Topo
import Mathlib.Algebra.BigOperators.Fin
import Mathlib.Tactic.NormNum
import Mathlib.Tactic.FinCases

/-! C62, C69: ICA-LiNGAM. -/

set_option linter.unusedSectionVars false

namespace Cdmir
open Lingam BigOperators

variable {K : Type} [Field K] [LinearOrder K] [IsStrictOrderedRing K] {n : Nat}
  {so1 : List (List Int) → List (List Int)} {so2 : List (List (List Int)) → List (List (List Int))}

/-- C62: `find_all_P` lists every permutation matrix, each once, whatever the iteration order of the sets. -/
theorem c62_all_P (h1 : ∀ l, (so1 l).Perm l) (h2 : ∀ l, (so2 l).Perm l) (hn : n ≠ 0) :
    ∃ Ps, findAllP so1 so2 n = .ok Ps ∧ Ps.Nodup ∧
      ∀ P, P ∈ Ps ↔ ∃ σ : Equiv.Perm (Fin n), P = (List.finRange n).map fun i => (List.finRange n).map fun j => if σ i = j then 1 else 0 :=
  findAllP_spec h1 h2 hn

/-- C62: the search for the rows of `W` finds a permutation of the rows with the smallest sum of inverse diagonal entries, if `W` has
no entry that is exactly zero. -/
theorem c62_W_wave (h1 : ∀ l, (so1 l).Perm l) (h2 : ∀ l, (so2 l).Perm l) (hn : n ≠ 0) {W : Mat K n} (hW : ∀ i j, W i j ≠ 0) :
    ∃ Ps, findAllP so1 so2 n = .ok Ps ∧ ∃ σ : Equiv.Perm (Fin n), findWWave Ps W = .ok (fun i j => W (σ i) j) ∧
      ∀ τ : Equiv.Perm (Fin n), ∑ i, |1 / W (σ i) i| ≤ ∑ i, |1 / W (τ i) i| := by
  obtain ⟨Ps, e, -, hP⟩ := findAllP_spec h1 h2 hn
  exact ⟨Ps, e, findWWave_spec hP hW⟩

/-- C62: the search for the rows of `B` finds a permutation of the rows with the smallest sum of squares on and above the diagonal. -/
theorem c62_B_wave (h1 : ∀ l, (so1 l).Perm l) (h2 : ∀ l, (so2 l).Perm l) (hn : n ≠ 0) (B : Mat K n) :
    ∃ Ps, findAllP so1 so2 n = .ok Ps ∧ ∃ σ : Equiv.Perm (Fin n), findBWave Ps B = .ok (fun i j => B (σ i) j) ∧
      ∀ τ : Equiv.Perm (Fin n), (∑ i, ∑ j, if i ≤ j then B (σ i) j ^ 2 else 0) ≤ ∑ i, ∑ j, if i ≤ j then B (τ i) j ^ 2 else 0 := by
  obtain ⟨Ps, e, -, hP⟩ := findAllP_spec h1 h2 hn
  obtain ⟨σ, e2, h⟩ := findBWave_spec hP B
  refine ⟨Ps, e, σ, e2, fun τ => ?_⟩
  have := h τ
  rw [bScore_eq, bScore_eq] at this
  simpa [pow_two] using this

theorem argmin_ok {l : List (Flt K)} (hl : l ≠ []) : ∃ k, argmin l = .ok k := by
  unfold argmin
  cases l.idxOf? .nan with
  | some k => exact ⟨k, rfl⟩
  | none =>
    cases l with
    | nil => exact absurd rfl hl
    | cons x xs => exact ⟨_, rfl⟩

theorem result_lower (reg : Fin n → List (Fin n) → Fin n → K) (P : Fin n → Fin n → Bool) (B : Mat K n) {i j : Fin n}
    (h : regress reg (waldPrune P (clearUpper B)) i j ≠ 0) : j < i := by
  by_contra hc
  refine h ?_
  simp [regress, waldPrune, clearUpper, not_lt.1 hc]

/-- C62: `fit` never raises in this part on at least one variable, and the result is a DAG: every coefficient that is not zero points
from an earlier to a later column. The graph has a one exactly at the coefficients that are not zero. For every outcome of the
independent component analysis, the Wald test and the regressions. -/
theorem c62_dag (h1 : ∀ l, (so1 l).Perm l) (h2 : ∀ l, (so2 l).Perm l) (hn : n ≠ 0) (wald : Mat K n → Fin n → Fin n → Bool)
    (reg : Fin n → List (Fin n) → Fin n → K) (W : Mat K n) :
    ∃ coef graph, fit so1 so2 wald reg W = .ok (coef, graph) ∧ (∀ i j, coef i j ≠ 0 → j < i) ∧
      (∀ i j, graph i j = if coef i j = 0 then 0 else 1) ∧ Spec.Acyclic fun j i => graph i j = 1 := by
  obtain ⟨Ps, e, -, hP⟩ := findAllP_spec h1 h2 hn
  have hne : Ps ≠ [] := List.ne_nil_of_mem ((hP _).2 ⟨1, rfl⟩)
  obtain ⟨k, hk⟩ := argmin_ok (l := Ps.map fun P => wScore (dot P W)) (by simpa using hne)
  obtain ⟨k', hk'⟩ := argmin_ok (l := Ps.map fun P => Flt.fin (bScore (dot P (bHat (dot (Ps.getD k []) W))))) (by simpa using hne)
  obtain ⟨coef, hc⟩ : ∃ coef, coef = regress reg (waldPrune (wald (dot (Ps.getD k []) W)) (clearUpper (dot (Ps.getD k' []) (bHat (dot (Ps.getD k []) W))))) := ⟨_, rfl⟩
  have low : ∀ i j, coef i j ≠ 0 → j < i := fun i j h => result_lower reg _ _ (hc ▸ h)
  refine ⟨coef, fun i j => if coef i j ≠ 0 then 1 else 0, ?_, low, fun i j => by simp, ?_⟩
  · unfold fit findWWave findBWave
    simp only [e, bind, Except.bind, pure, Except.pure, hk, hk', hc]
  · intro u hu
    have step : ∀ j i : Fin n, (if coef i j ≠ 0 then (1 : Int) else 0) = 1 → j < i := fun j i h => low i j fun h0 => by simp [h0] at h
    have : ∀ a b : Fin n, Relation.TransGen (fun j i => (if coef i j ≠ 0 then (1 : Int) else 0) = 1) a b → a < b := by
      intro a b h
      induction h with
      | single h => exact step _ _ h
      | tail _ h ih => exact lt_trans ih (step _ _ h)
    exact lt_irrefl _ (this u u hu)

/-- Without variables `find_all_P` raises an `IndexError`. -/
theorem c62_empty (wald : Mat K 0 → Fin 0 → Fin 0 → Bool) (reg : Fin 0 → List (Fin 0) → Fin 0 → K) (W : Mat K 0) :
    fit so1 so2 wald reg W = .error .index := rfl

/-- A matrix of two variables without zeros. The rows are exchanged, then scaled; the upper entry is cleared. -/
example : (fit id id (fun _ _ _ => false) (fun _ _ _ => (7 : ℚ)) (fun i j : Fin 2 => if i = 0 then (if j = 0 then 2 else 4) else if j = 0 then 3 else 1 / 10)).map
    (fun r => (r.1 0 0, r.1 0 1, r.1 1 0, r.1 1 1, r.2 1 0)) = .ok (0, 0, 7, 0, 1) := by decide +kernel

/-! ### recovery -/

/-- C69, finding: an edge from a later to an earlier column is never reported, whatever the data: a model in which column 1 causes
column 0 is not recovered. -/
theorem c69_order (h1 : ∀ l, (so1 l).Perm l) (h2 : ∀ l, (so2 l).Perm l) (wald : Mat K n → Fin n → Fin n → Bool)
    (reg : Fin n → List (Fin n) → Fin n → K) (W : Mat K n) {coef : Mat K n} {graph : Mat Int n} (h : fit so1 so2 wald reg W = .ok (coef, graph))
    {i j : Fin n} (hij : i ≤ j) : graph i j = 0 ∧ coef i j = 0 := by
  obtain ⟨c, g, e, l, hg, -⟩ := c62_dag h1 h2 (by rintro rfl; exact i.elim0) wald reg W
  rw [e] at h
  cases h
  have : coef i j = 0 := by
    by_contra hc
    exact absurd (l i j hc) (not_lt.2 hij)
  exact ⟨by rw [hg, if_pos this], this⟩

/-- C69, finding: if the unmixing matrix has a row with two exact zeros (the exact matrix of every DAG with at least three variables has
one), all scores are NaN and the first permutation of the list is taken. -/
theorem c69_exact_nan (h1 : ∀ l, (so1 l).Perm l) (h2 : ∀ l, (so2 l).Perm l) (hn : n ≠ 0) {W : Mat K n} {r c c' : Fin n} (hc : c ≠ c')
    (h : W r c = 0) (h' : W r c' = 0) : ∃ Ps, findAllP so1 so2 n = .ok Ps ∧ findWWave Ps W = .ok (dot (Ps.getD 0 []) W) := by
  obtain ⟨Ps, e, -, hP⟩ := findAllP_spec h1 h2 hn
  refine ⟨Ps, e, ?_⟩
  have hnan : ∀ P ∈ Ps, wScore (dot P W) = .nan := by
    intro P hp
    obtain ⟨σ, rfl⟩ := (hP P).1 hp
    rw [dot_perm]
    by_cases k : σ.symm r = c
    · exact wScore_nan (i := σ.symm r) (j := c') (by rw [k]; exact hc) (by simpa using h')
    · exact wScore_nan (i := σ.symm r) (j := c) k (by simpa using h)
  have hne : Ps ≠ [] := List.ne_nil_of_mem ((hP _).2 ⟨1, rfl⟩)
  obtain ⟨P, Ps', rfl⟩ := List.exists_cons_of_ne_nil hne
  unfold findWWave argmin
  have : ((P :: Ps').map fun P => wScore (dot P W)).idxOf? Flt.nan = some 0 := by
    rw [List.map_cons, hnan P List.mem_cons_self]
    simp [List.idxOf?_cons]
  rw [this]
  rfl

theorem dag_two_zeros {B : Mat K n} (ac : Spec.Acyclic fun j i => B i j ≠ 0) (h3 : 3 ≤ n) {d : Fin n → K} (σ : Equiv.Perm (Fin n)) :
    ∃ r c c' : Fin n, c ≠ c' ∧ d (σ r) * ((if σ r = c then 1 else 0) - B (σ r) c) = 0 ∧ d (σ r) * ((if σ r = c' then 1 else 0) - B (σ r) c') = 0 := by
  obtain ⟨s, hs⟩ : ∃ s, ∀ j, B s j = 0 := by
    obtain ⟨i, -, hi⟩ := Graph.exists_minimal (R := fun j i => B i j ≠ 0) (List.finRange n) (fun u v _ => List.mem_finRange u) ac (fun _ => True) ⟨⟨0, by omega⟩, trivial⟩
    exact ⟨i, fun j => by by_contra h; exact hi j h trivial⟩
  have hcard : 2 ≤ (Finset.univ.erase s).card := by
    rw [Finset.card_erase_of_mem (Finset.mem_univ s), Finset.card_univ, Fintype.card_fin]
    omega
  obtain ⟨c, hc, c', hc', hne⟩ := Finset.one_lt_card.1 hcard
  refine ⟨σ.symm s, c, c', hne, ?_, ?_⟩
  · simp [hs, (Finset.ne_of_mem_erase hc).symm]
  · simp [hs, (Finset.ne_of_mem_erase hc').symm]

/-- C69, finding: given the exact unmixing matrix of a DAG with at least three variables, rows in any order and scaled in any way, the
search takes the first permutation of the list, without regard to the matrix. -/
theorem c69_exact (h1 : ∀ l, (so1 l).Perm l) (h2 : ∀ l, (so2 l).Perm l) {B : Mat K n} (ac : Spec.Acyclic fun j i => B i j ≠ 0) (h3 : 3 ≤ n)
    (d : Fin n → K) (σ : Equiv.Perm (Fin n)) :
    ∃ Ps, findAllP so1 so2 n = .ok Ps ∧ findWWave Ps (fun i j => d (σ i) * ((if σ i = j then 1 else 0) - B (σ i) j)) =
      .ok (dot (Ps.getD 0 []) fun i j => d (σ i) * ((if σ i = j then 1 else 0) - B (σ i) j)) := by
  obtain ⟨r, c, c', hne, h, h'⟩ := dag_two_zeros ac h3 (d := d) σ
  exact c69_exact_nan h1 h2 (by omega) hne h h'

/-- The exact matrix of the model 0 to 1 with its first two rows exchanged: the search leaves them exchanged, with a zero on the diagonal. -/
example : ((findAllP id id 3).bind fun Ps => (findWWave Ps fun i j : Fin 3 => if i = 0 then (if j = 0 then -1 / 2 else if j = 1 then (1 : ℚ) else 0)
    else if i = 1 then (if j = 0 then 1 else 0) else if j = 2 then 1 else 0).map fun V => (V 0 0, V 1 1, V 2 2, V 1 0)) = .ok (-1 / 2, 0, 1, 1) := by
  decide +kernel

/-- The estimate of a model in which column 0 causes column 2 with weight 1/2, with errors of at most 1/50 and without zeros. -/
def exEstimate (i j : Fin 3) : ℚ :=
  if i = j then 1 else if (i, j) = (2, 0) then -1 / 2 else if (i, j) = (0, 1) then -1 / 50 else -1 / 100

theorem exEstimate_rows : ∀ f : Fin 3 → Fin 3, Function.Injective f → f ≠ id → ∑ i, |1 / exEstimate i i| < ∑ i, |1 / exEstimate (f i) i| := by
  decide +kernel

/-- The rows of the estimate in the order 1, 2, 0. -/
def exOrder : Equiv.Perm (Fin 3) := ⟨fun i => i + 1, fun i => i + 2, by decide, by decide⟩

theorem exEstimate_best : ∀ f : Fin 3 → Fin 3, Function.Injective f → f ≠ (fun i => i + 1) →
    bScore (fun i j => bHat exEstimate (i + 1) j) < bScore fun i j => bHat exEstimate (f i) j := by
  decide +kernel

/-- C69, the full statement is false: also with the right order of the columns, estimates within 1/50 of the truth and no zeros, the
search over the rows of `B` takes another order, and the only edge of the model (0 to 2) is not reported; the entry for an edge from
0 to 1 holds its weight before the tests. For every iteration order and every outcome of the tests. -/
theorem c69_false (h1 : ∀ l, (so1 l).Perm l) (h2 : ∀ l, (so2 l).Perm l) (wald : Mat ℚ 3 → Fin 3 → Fin 3 → Bool)
    (reg : Fin 3 → List (Fin 3) → Fin 3 → ℚ) :
    (∀ i j, |exEstimate i j - ((if i = j then 1 else 0) - if (i, j) = (2, 0) then 1 / 2 else 0)| ≤ 1 / 50) ∧
    ∃ coef graph, fit so1 so2 wald reg exEstimate = .ok (coef, graph) ∧ graph 2 0 = 0 ∧
      (wald exEstimate 1 0 = false → reg 1 [0] 0 ≠ 0 → graph 1 0 = 1) := by
  refine ⟨by decide +kernel, ?_⟩
  obtain ⟨Ps, e, -, hP⟩ := findAllP_spec h1 h2 (n := 3) (by decide)
  obtain ⟨σ, e1, hσ⟩ := findWWave_spec hP (W := exEstimate) (by decide +kernel)
  have : σ = 1 := by
    by_contra h
    exact absurd (hσ 1) (not_le.2 (exEstimate_rows σ σ.injective fun k => h (Equiv.ext fun i => congrFun k i)))
  subst this
  obtain ⟨τ, e2, hτ⟩ := findBWave_spec hP (bHat exEstimate)
  have : τ = exOrder := by
    by_contra h
    exact absurd (hτ exOrder) (not_le.2 (exEstimate_best τ τ.injective fun k => h (Equiv.ext fun i => congrFun k i)))
  subst this
  have h20 : bHat exEstimate (exOrder 2) 0 = 0 := by decide +kernel
  have h10 : bHat exEstimate (exOrder 1) 0 = 1 / 2 := by decide +kernel
  have e1' : findWWave Ps exEstimate = .ok exEstimate := e1
  refine ⟨regress reg (waldPrune (wald exEstimate) (clearUpper fun i j => bHat exEstimate (exOrder i) j)),
    fun i j => if regress reg (waldPrune (wald exEstimate) (clearUpper fun i j => bHat exEstimate (exOrder i) j)) i j ≠ 0 then 1 else 0, ?_, ?_, ?_⟩
  · unfold fit
    simp only [e, bind, Except.bind, e1', e2, pure, Except.pure]
  · simp [regress, waldPrune, clearUpper, h20]
  · intro hw hr
    have hf : ((List.finRange 3).filter fun k => waldPrune (wald exEstimate) (clearUpper fun i j => bHat exEstimate (exOrder i) j) 1 k ≠ 0) = [0] := by
      have h3 : List.finRange 3 = [0, 1, 2] := by decide
      simp [h3, waldPrune, clearUpper, hw, h10]
    simp only [regress, hf]
    simp [waldPrune, clearUpper, hw, h10, hr]

/-- C69, what holds: suppose `W` has no zeros, one order `V` of its rows has a strictly smallest sum of inverse diagonal entries, and in
the estimate `B` that follows from it every entry just below the diagonal outweighs everything on and above the diagonal. Then the
order of the rows is kept and the coefficients are the regression coefficients on the entries of `B` below the diagonal that are
not zero and pass the test. Missing: the entries just below the diagonal may be small in a model that is to be recovered
(`c69_false`), and the order of the columns may be another than the causal one (`c69_order`). -/
theorem c69_fit_partial (h1 : ∀ l, (so1 l).Perm l) (h2 : ∀ l, (so2 l).Perm l) (hn : n ≠ 0) (wald : Mat K n → Fin n → Fin n → Bool)
    (reg : Fin n → List (Fin n) → Fin n → K) {W V : Mat K n} (hW : ∀ i j, W i j ≠ 0) (ρ : Equiv.Perm (Fin n)) (hV : ∀ i j, V i j = W (ρ i) j)
    (hbest : ∀ σ : Equiv.Perm (Fin n), σ ≠ ρ → ∑ i, |1 / V i i| < ∑ i, |1 / W (σ i) i|) {B : Mat K n}
    (hB : ∀ i j, B i j = (if i = j then 1 else 0) - V i j / V i i)
    (hsub : ∀ i j : Fin n, j.val + 1 = i.val → (∑ a, ∑ b, if a ≤ b then B a b ^ 2 else 0) < B i j ^ 2) :
    ∃ coef graph, fit so1 so2 wald reg W = .ok (coef, graph) ∧ ∀ i j, coef i j =
      if j < i ∧ B i j ≠ 0 ∧ wald V i j = false then reg i ((List.finRange n).filter fun k => k < i ∧ B i k ≠ 0 ∧ wald V i k = false) j else 0 := by
  obtain ⟨Ps, e, -, hP⟩ := findAllP_spec h1 h2 hn
  obtain ⟨σ, e1, hσ⟩ := findWWave_spec hP hW
  have hs : σ = ρ := by
    by_contra h
    have := hbest σ h
    simp only [hV] at this
    exact absurd (hσ ρ) (not_le.2 this)
  subst hs
  have e1' : findWWave Ps W = .ok V := by rw [e1]; congr 1; funext i j; exact (hV i j).symm
  have hBh : bHat V = B := by
    funext i j
    have : V i i ≠ 0 := by rw [hV]; exact hW _ _
    rw [hB]
    simp [bHat, this, div_eq_inv_mul]
  obtain ⟨τ, e2, hτ⟩ := findBWave_spec hP B
  have ht : τ = 1 := by
    by_contra h
    obtain ⟨i, hi⟩ := exists_later h
    have hpos : 0 < (τ i).val := lt_of_le_of_lt (Nat.zero_le _) hi
    have hlt : (τ i).val - 1 < n := by have := (τ i).isLt; omega
    have h3 := hsub (τ i) ⟨(τ i).val - 1, hlt⟩ (by simp; omega)
    have h4 := bScore_ge (fun i j => B (τ i) j) (i := i) (k := ⟨(τ i).val - 1, hlt⟩) (by
      rw [Fin.le_def]
      have : i.val < (τ i).val := hi
      simp
      omega)
    have h5 := hτ 1
    rw [bScore_eq (fun i j => B ((1 : Equiv.Perm (Fin n)) i) j)] at h5
    simp only [Equiv.Perm.one_apply, ← pow_two] at h5 h4
    exact absurd (h4.trans h5) (not_le.2 h3)
  subst ht
  have e2' : findBWave Ps B = .ok B := e2
  refine ⟨regress reg (waldPrune (wald V) (clearUpper B)), fun i j => if regress reg (waldPrune (wald V) (clearUpper B)) i j ≠ 0 then 1 else 0, ?_, ?_⟩
  · unfold fit
    simp only [e, bind, Except.bind, e1', hBh, e2', pure, Except.pure]
  · have key : ∀ i j, waldPrune (wald V) (clearUpper B) i j ≠ 0 ↔ j < i ∧ B i j ≠ 0 ∧ wald V i j = false := by
      intro i j
      unfold waldPrune clearUpper
      by_cases hw : wald V i j = true
      · simp [hw]
      · by_cases hl : i ≤ j
        · simp [hl, not_lt.2 hl]
        · simp [hw, hl, not_le.1 hl]
    intro i j
    unfold regress
    simp only [key]
    by_cases h : j < i ∧ B i j ≠ 0 ∧ wald V i j = false
    · rw [if_pos h, if_pos h]
    · rw [if_neg h, if_neg h]
      exact not_ne_iff.1 (mt (key i j).1 h)

/-- A matrix that meets the hypotheses of `c69_fit_partial`. -/
example : let W : Mat ℚ 2 := fun i j => if i = j then 1 else if i < j then -1 / 10 else -1 / 2
    (∀ i j, W i j ≠ 0) ∧ (∀ f : Fin 2 → Fin 2, Function.Injective f → f ≠ id → ∑ i, |1 / W i i| < ∑ i, |1 / W (f i) i|) ∧
    ∀ i j : Fin 2, j.val + 1 = i.val → (∑ a, ∑ b, if a ≤ b then ((if a = b then 1 else 0) - W a b / W a a) ^ 2 else 0) <
      ((if i = j then 1 else 0) - W i j / W i i) ^ 2 := by
  decide +kernel

end Cdmir
