import Verif.Props.OlcFactor
import Verif.Props.HierLatentFalse

/-! C168: routines as in `Ideal` exist for every factor, and olc loses the load of a fourth column. -/

set_option linter.unusedSectionVars false

namespace Cdmir.Olc
open BigOperators

variable {n : Nat} {P : Type} {M : Factor n} {eps : ℝ} {E : Env (Form n) ℝ P}

/-- What is asked of a singular value decomposition. -/
def SvdOk (svd : List (List ℝ) → Option (List ℝ)) : Prop :=
  ∀ (rows : List (List ℝ)) (k : Nat), rows ≠ [] → (∀ r ∈ rows, r.length = k) → ∃ ω : List ℝ, svd rows = some ω ∧ ω.length = rows.length ∧
    (ω.map fun w => w ^ 2).sum = 1 ∧ (k < rows.length → ∀ j, j < k → (List.zipWith (fun w r => w * r.getD j 0) ω rows).sum = 0)

open Classical in
/-- The routines for one factor. -/
noncomputable def idealEnv (M : Factor n) (eps : ℝ) (svd : List (List ℝ) → Option (List ℝ)) : Env (Form n) ℝ Bool where
  residual x _ := x
  normalize x := fun s => x s / Real.sqrt (M.cov x x)
  pval a b := decide (∀ s, a s = 0 ∨ b s = 0)
  fisher ps := ps.all id
  geAlpha := id
  geBeta := id
  zeroP := false
  cov cols i j := M.cov (cols.getD i 0) (cols.getD j 0)
  cov2 := M.cov
  start c x e := Real.sqrt |c * M.cum4 x e e e / M.cum4 x x e e|
  svdLast := svd
  divLast ω := ω.map fun w => w / ω.getLastD 0
  comb ω cols s := (List.zipWith (fun w c => w * c s) ω cols).sum
  small a := decide (|a| < eps)
  cliques V _ := [V.dedup]
  order l := l

theorem ideal_env (M : Factor n) (eps : ℝ) {svd : List (List ℝ) → Option (List ℝ)} (h : SvdOk svd) : Ideal M eps (idealEnv M eps svd) where
  residual _ _ := rfl
  alpha a b := by simp [idealEnv]
  beta a b := by simp [idealEnv]
  fisher ps h1 h2 := by
    cases ps with
    | nil => exact absurd rfl h1
    | cons p ps =>
      have : p = false := h2 p List.mem_cons_self
      simp [idealEnv, this]
  cov2 _ _ := rfl
  start _ _ _ := rfl
  svd := h
  divLast _ := rfl
  comb _ _ _ := rfl
  small a := by simp [idealEnv]
  order _ _ := List.Perm.refl _
  cliques V u := ⟨by simp [idealEnv, List.nodup_dedup], by simp [idealEnv]⟩

theorem svd_kernel {a b : Nat} {A : Matrix (Fin b) (Fin a) ℝ} {v : Matrix (Fin a) (Fin a) ℝ} (h : Hier.IsSvd A v) (hab : b < a) (i : Fin b) :
    ∑ j, A i j * v ⟨a - 1, by omega⟩ j = 0 := by
  obtain ⟨hv, u, s, hA⟩ := h
  have hω : Matrix.mulVec v (fun j => v ⟨a - 1, by omega⟩ j) = Pi.single (⟨a - 1, by omega⟩ : Fin a) 1 := by
    funext k
    have := congrFun (congrFun hv k) ⟨a - 1, by omega⟩
    rw [Matrix.mul_apply] at this
    unfold Matrix.mulVec dotProduct
    rw [show (∑ j, v k j * v ⟨a - 1, by omega⟩ j) = ∑ j, v k j * v.transpose j ⟨a - 1, by omega⟩ from rfl, this, Matrix.one_apply, Pi.single_apply]
  have hm : Matrix.mulVec A (fun j => v ⟨a - 1, by omega⟩ j) = 0 := by
    generalize (fun j => v ⟨a - 1, by omega⟩ j) = w at hω ⊢
    rw [hA, ← Matrix.mulVec_mulVec, hω, ← Matrix.mulVec_mulVec]
    have : Matrix.mulVec (Matrix.of fun (i : Fin b) (j : Fin a) => if i.val = j.val then s i.val else 0) (Pi.single (⟨a - 1, by omega⟩ : Fin a) (1 : ℝ)) = 0 := by
      funext k
      rw [Matrix.mulVec_single_one]
      simp only [Matrix.col_apply, Matrix.of_apply, Pi.zero_apply]
      rw [if_neg]
      have := k.2
      omega
    rw [this, Matrix.mulVec_zero]
  exact congrFun hm i

theorem sum_zipWith_ofFn (rows : List (List ℝ)) (w : Fin rows.length → ℝ) (f : ℝ → List ℝ → ℝ) :
    (List.zipWith f (List.ofFn w) rows).sum = ∑ j, f (w j) (rows.get j) := by
  have : List.zipWith f (List.ofFn w) rows = List.ofFn fun j => f (w j) (rows.get j) := by
    refine List.ext_getElem (by simp) fun i h1 h2 => ?_
    simp
  rw [this, List.sum_ofFn]

/-- Every matrix has a last right singular vector. -/
theorem svd_exists (rows : List (List ℝ)) : ∃ ω : List ℝ, ω.length = rows.length ∧ (rows ≠ [] → (ω.map fun w => w ^ 2).sum = 1) ∧
    ∀ k, (∀ r ∈ rows, r.length = k) → k < rows.length → ∀ j, j < k → (List.zipWith (fun w r => w * r.getD j 0) ω rows).sum = 0 := by
  by_cases h0 : rows = []
  · subst h0
    exact ⟨[], rfl, fun h => absurd rfl h, fun k _ hk => absurd hk (by simp)⟩
  have hp : 0 < rows.length := List.length_pos_iff.2 h0
  let b := (rows.headD []).length
  let A : Matrix (Fin b) (Fin rows.length) ℝ := fun i j => (rows.get j).getD i.val 0
  obtain ⟨v, hv⟩ := Hier.c167_svd A
  refine ⟨List.ofFn fun j => v ⟨rows.length - 1, by omega⟩ j, by simp, fun _ => ?_, ?_⟩
  · have h1 := congrFun (congrFun hv.1 ⟨rows.length - 1, by omega⟩) ⟨rows.length - 1, by omega⟩
    rw [Matrix.mul_apply, Matrix.one_apply_eq] at h1
    rw [List.map_ofFn, List.sum_ofFn, ← h1]
    refine Finset.sum_congr rfl fun j _ => ?_
    simp only [Function.comp, Matrix.transpose_apply]
    ring
  · intro k hk hkl j hj
    have hb : b = k := by
      cases rows with
      | nil => exact absurd rfl h0
      | cons r rows => exact hk r List.mem_cons_self
    have := svd_kernel hv (by omega) ⟨j, by omega⟩
    rw [sum_zipWith_ofFn]
    refine Eq.trans ?_ this
    exact Finset.sum_congr rfl fun i _ => mul_comm _ _

/-- C168: for every factor there are routines that answer as from the true distribution. -/
theorem c168_ideal (M : Factor n) (eps : ℝ) : ∃ E : Env (Form n) ℝ Bool, Ideal M eps E :=
  ⟨idealEnv M eps fun rows => some (Classical.choose (svd_exists rows)), ideal_env M eps fun rows k h0 hk => by
    obtain ⟨h1, h2, h3⟩ := Classical.choose_spec (svd_exists rows)
    exact ⟨_, rfl, h1, h2 h0, h3 k hk⟩⟩

/-- Loads of different size and sign; the tolerance of the code. -/
example : ∃ E : Env (Form 3) ℝ Bool, ∃ r, olc E 2 3 (Factor.column ⟨fun i => if i = 0 then 2 else if i = 1 then -1 else 1 / 2, fun _ => 4, fun _ => 1⟩) = .ok r ∧
    r.size = 4 ∧ (∀ i j, r.adjmat i j = if i < 3 ∧ j = 3 then 1 else 0) ∧ r.coef 0 3 * r.coef 1 3 = -8 ∧ r.coef 1 3 * r.coef 2 3 = -2 := by
  set M : Factor 3 := ⟨fun i => if i = 0 then 2 else if i = 1 then -1 else 1 / 2, fun _ => 4, fun _ => 1⟩ with hM
  obtain ⟨E, hE⟩ := c168_ideal M (1 / 100000)
  have hv : Real.sqrt (M.var none) = 2 := by
    rw [hM]
    exact (Real.sqrt_eq_iff_mul_self_eq (by norm_num) (by norm_num)).2 (by norm_num)
  have hgood : M.Good := by
    refine ⟨fun i _ => ?_, by simp [hM], by simp [hM]⟩
    simp only [hM]
    split
    · norm_num
    · split <;> norm_num
  obtain ⟨r, h1, h2, h3, k, hk, h4⟩ := c168_three hgood hE (by norm_num) (fun i hi => by
    rw [hv]
    interval_cases i <;> norm_num [hM]) 0
  have hk2 : k ^ 2 = 4 := by
    rw [← sq_abs, hk, hv]
    norm_num
  refine ⟨E, r, h1, h2, h3, ?_, ?_⟩
  · rw [h4, h4]
    simp [hM]
    linarith
  · rw [h4, h4]
    simp [hM]
    linarith

/-- The length of a vector of two. -/
noncomputable def len (p q : ℝ) : ℝ := Real.sqrt (p ^ 2 + q ^ 2)

/-- The matrix that arises when a latent variable is tried twice has a decomposition whose last vector does not use the third row. -/
theorem c168_svd {p q : ℝ} (hp : p ≠ 0) : Hier.FullSvd (!![p, q, 0; p, q, 0] : Matrix (Fin 2) (Fin 3) ℝ)
    !![p / len p q, q / len p q, 0; 0, 0, 1; q / len p q, -p / len p q, 0] := by
  have hr : 0 < len p q := Real.sqrt_pos.2 (by positivity)
  have hr2 : len p q ^ 2 = p ^ 2 + q ^ 2 := Real.sq_sqrt (by positivity)
  have h2 : (1 / Real.sqrt 2) * (1 / Real.sqrt 2) = 1 / 2 := by
    rw [div_mul_div_comm, Real.mul_self_sqrt (by norm_num), one_mul]
  have h22 : Real.sqrt 2 * (1 / Real.sqrt 2) = 1 := by
    rw [mul_one_div, div_self (by positivity)]
  set t := 1 / Real.sqrt 2
  set r := len p q
  refine ⟨?_, !![t, t; t, -t], fun i => if i = 0 then Real.sqrt 2 * r else 0, ?_, fun i => ?_, fun i j hij => ?_, ?_⟩
  · ext i j
    fin_cases i <;> fin_cases j <;> simp [Matrix.mul_apply, Fin.sum_univ_three] <;> field_simp <;> linarith
  · ext i j
    fin_cases i <;> fin_cases j <;> simp [Matrix.mul_apply, Fin.sum_univ_two] <;> linarith
  · dsimp only
    split <;> positivity
  · by_cases hj : j = 0
    · have : i = 0 := by omega
      simp [hj, this]
    · simp only [if_neg hj]
      split <;> positivity
  · have h3 : t * (Real.sqrt 2 * r) = r := by linear_combination r * h22
    have h4 : (Matrix.of fun (i : Fin 2) (j : Fin 3) => if i.val = j.val then (if i.val = 0 then Real.sqrt 2 * r else 0) else 0) =
        !![Real.sqrt 2 * r, 0, 0; 0, 0, 0] := by
      ext i j
      fin_cases i <;> fin_cases j <;> simp
    dsimp only
    rw [h4]
    ext i j
    fin_cases i <;> fin_cases j <;> simp [Matrix.mul_apply, Fin.sum_univ_three, h3, mul_div_cancel₀ _ hr.ne']

/-- A choice of singular vectors that does not use a row of zeros for the matrices as in `c168_svd`. -/
theorem svd_choice : ∃ svd, SvdOk svd ∧ ∀ p q : ℝ, p ≠ 0 → svd [[p, p], [q, q], [0, 0]] = some [q / len p q, -p / len p q, 0] := by
  classical
  refine ⟨fun rows => if h : ∃ p q : ℝ, p ≠ 0 ∧ rows = [[p, p], [q, q], [0, 0]] then
    some [h.choose_spec.choose / len h.choose h.choose_spec.choose, -h.choose / len h.choose h.choose_spec.choose, 0]
    else some (Classical.choose (svd_exists rows)), fun rows k h0 hk => ?_, fun p q hp => ?_⟩
  · by_cases h : ∃ p q : ℝ, p ≠ 0 ∧ rows = [[p, p], [q, q], [0, 0]]
    · simp only [dif_pos h]
      obtain ⟨hp, hrows⟩ := h.choose_spec.choose_spec
      generalize h.choose_spec.choose = q at hrows ⊢
      generalize h.choose = p at hp hrows ⊢
      have hr : 0 < len p q := Real.sqrt_pos.2 (by positivity)
      have hr2 : len p q ^ 2 = p ^ 2 + q ^ 2 := Real.sq_sqrt (by positivity)
      refine ⟨_, rfl, by rw [hrows]; rfl, ?_, fun hk' j hj => ?_⟩
      · simp only [List.map_cons, List.map_nil, List.sum_cons, List.sum_nil]
        field_simp
        linarith
      · have hk2 : k = 2 := by
          rw [hrows] at hk
          exact (hk [p, p] (by simp)).symm
        subst hk2
        rw [hrows]
        interval_cases j <;> simp <;> ring
    · simp only [dif_neg h]
      obtain ⟨h1, h2, h3⟩ := Classical.choose_spec (svd_exists rows)
      exact ⟨_, rfl, h1, h2 h0, h3 k hk⟩
  · have h : ∃ p' q' : ℝ, p' ≠ 0 ∧ [[p, p], [q, q], [0, 0]] = [[p', p'], [q', q'], [0, 0]] := ⟨p, q, hp, rfl⟩
    simp only [dif_pos h]
    obtain ⟨-, he⟩ := h.choose_spec.choose_spec
    generalize h.choose_spec.choose = q' at he ⊢
    generalize h.choose = p' at he ⊢
    simp only [List.cons.injEq, and_true] at he
    obtain ⟨⟨rfl, -⟩, rfl, -⟩ := he
    rfl

theorem Factor.cov_comb (M : Factor n) (a b c : Form n) (p q : ℝ) : M.cov (fun s => p * a s + q * b s) c = p * M.cov a c + q * M.cov b c := by
  unfold Factor.cov
  rw [Finset.mul_sum, Finset.mul_sum, ← Finset.sum_add_distrib]
  exact Finset.sum_congr rfl fun s _ => by ring

section ideal
variable (hM : M.Good) (hE : Ideal M eps E)
include hM hE

/-- What is left of a column after the regression on one surrogate is not correlated with a third column. -/
theorem surr_left (A : Nat → Nat → ℝ) {l u z y : Nat} {k : ℝ} (hk : k ≠ 0) (hu : A u l = k * M.load u) (hz : A z l = k * M.load z) (hyu : u ≠ y) (hyz : z ≠ y) :
    ∃ e, surrReg E M.column A [u] [l] (some z) = some e ∧ E.cov2 e (M.column y) = 0 := by
  obtain ⟨ω, h1, h2, h3, h4⟩ := hE.svd ([u, z].map fun i => [l].map fun j => A i j) 1 (by simp) (by simp)
  refine ⟨E.comb (E.divLast ω) [M.column u, M.column z], ?_, ?_⟩
  · unfold surrReg
    simp only [List.singleton_append, Option.isSome_some, if_true]
    rw [h1]
    rfl
  rw [List.length_map, List.length_cons, List.length_singleton, List.length_eq_two] at h2
  obtain ⟨p, q, rfl⟩ := h2
  have h5 := h4 (by simp) 0 (by simp)
  simp only [List.map_cons, List.map_nil, List.zipWith_cons_cons, List.zipWith_nil_left, List.sum_cons, List.sum_nil, List.getD_cons_zero, add_zero, hu, hz] at h5
  have h6 : p * M.load u + q * M.load z = 0 := by
    refine (mul_eq_zero.1 (?_ : k * (p * M.load u + q * M.load z) = 0)).resolve_left hk
    linear_combination h5
  have h7 : E.comb (E.divLast [p, q]) [M.column u, M.column z] = fun s => p / q * M.column u s + q / q * M.column z s := by
    funext s
    rw [hE.comb, hE.divLast]
    simp
  rw [h7, hE.cov2, M.cov_comb, M.cov_columns hyu, M.cov_columns hyz]
  rw [show p / q * (M.load u * M.load y * M.var none) + q / q * (M.load z * M.load y * M.var none) =
    (p * M.load u + q * M.load z) * (M.load y * M.var none / q) by ring, h6, zero_mul]

/-- A latent variable that is tried a second time for a column without a coefficient is accepted, and the coefficient stays zero. -/
theorem tryLatent_again (he : 0 < eps) (hl : ∀ i, i < n → eps ≤ |M.load i| * Real.sqrt (M.var none))
    (hsvd : ∀ p q : ℝ, p ≠ 0 → E.svdLast [[p, p], [q, q], [0, 0]] = some [q / len p q, -p / len p q, 0])
    {s : St3 ℝ} {l u x y z : Nat} {k : ℝ} (hk : |k| = Real.sqrt (M.var none)) (hu : s.A u l = k * M.load u) (hx : s.A x l = k * M.load x)
    (hz : s.A z l = k * M.load z) (hy : s.A y l = 0) (hun : u < n) (hxn : x < n) (hzn : z < n) (huy : u ≠ y) (huz : u ≠ z)
    (hxz : x ≠ z) (hyz : y ≠ z) (hcs : twoOf (s.surrogate x) (s.surrogate y) (s.surrogate z) = [u])
    (hce : twoOf (s.exogenous x) (s.exogenous y) (s.exogenous z) = [l]) :
    tryLatent E M.column l s x y z = (⟨removeEdge (removeEdge s.udg x z) y z, addArc (addArc (addArc s.cg l x) l y) l z, s.A,
      insertAt (insertAt s.surrogate x z) y z, insertAt (insertAt (insertAt s.exogenous x l) y l) z l, true, s.orient⟩, true) := by
  have hk0 : k ≠ 0 := by
    rintro rfl
    rw [abs_zero] at hk
    exact (Real.sqrt_pos.2 hM.var).ne hk
  obtain ⟨e, he1, he2⟩ := surr_left hM hE s.A hk0 hu hz huy hyz.symm
  have hsmall : ∀ i, i < n → E.small (k * M.load i) = false := by
    intro i hi
    rw [Bool.eq_false_iff, ne_eq, hE.small, not_lt, abs_mul, hk, mul_comm]
    exact hl i hi
  have hs0 : E.small 0 = true := by
    rw [hE.small, abs_zero]
    exact he
  have hA : setA s.A y l 0 = s.A := by
    unfold setA
    rw [← hy, Function.update_eq_self, Function.update_eq_self]
  have hlat : latentA E M.column e s.A l x y z = (s.A, false, true, false) := by
    unfold latentA
    simp only [hz, hsmall z hzn, Bool.false_eq_true, if_false, hx, hsmall x hxn, hy, hs0, if_true, he2, zero_div, hA]
  have hp : k * M.load u ≠ 0 := mul_ne_zero hk0 (hM.load u hun)
  have hreg : E.geBeta (surrPval E M.column s.A ([u] ++ [x, y]) ([l] ++ [l]) z) = true := by
    unfold surrPval surrReg
    simp only [List.singleton_append, List.map_cons, List.map_nil, hu, hx, hy, hsvd _ _ hp, Option.isSome_none, Bool.false_eq_true, if_false]
    rw [hE.beta]
    rintro (_ | j)
    · left
      rw [hE.comb]
      simp only [List.zipWith_cons_cons, List.zipWith_nil_left, List.sum_cons, List.sum_nil, Factor.column]
      ring
    · by_cases hj : j.val = z
      · left
        rw [hE.comb]
        simp [Factor.column, hj, Ne.symm hxz, Ne.symm huz]
      · right
        simp [Factor.column, hj]
  unfold tryLatent
  rw [hcs, hce, order_one hM hE, order_one hM hE]
  simp only [List.isEmpty_cons, Bool.false_eq_true, if_false, he1, Option.getD_some, hlat]
  rw [if_pos hreg]

end ideal

theorem phase3_next {cov : Nat → Nat → ℝ} {col : Nat → Form n} {po : List Nat} {fuel lid : Nat} {s s' : St3 ℝ}
    (h : (pairs po).foldlM (step3 E col cov n (lid + n) po) { s with latent := false, orient := false } = .ok s') (hl : s'.latent = true) :
    phase3 E col cov n po (fuel + 1) lid s = phase3 E col cov n po fuel (lid + 1) s' := by
  rw [phase3, h]
  simp [bind, Except.bind, hl]

theorem phase3_end {cov : Nat → Nat → ℝ} {col : Nat → Form n} {po : List Nat} {fuel lid : Nat} {s s' : St3 ℝ}
    (h : (pairs po).foldlM (step3 E col cov n (lid + n) po) { s with latent := false, orient := false } = .ok s') (hl : s'.latent = false)
    (ho : s'.orient = false) : phase3 E col cov n po (fuel + 1) lid s = .ok (s', lid) := by
  rw [phase3, h]
  simp [bind, Except.bind, hl, ho, pure, Except.pure]

set_option maxHeartbeats 400000 in
/-- C168. Four columns of one factor, whatever the loads: with routines as in `Ideal` and a singular value decomposition that is right, olc returns the right
graph and a coefficient of zero for the fourth column. -/
theorem c168_four_false {M : Factor 4} (hM : M.Good) (he : 0 < eps) (hl : ∀ i, i < 4 → eps ≤ |M.load i| * Real.sqrt (M.var none)) :
    ∃ E : Env (Form 4) ℝ Bool, Ideal M eps E ∧
      (∀ p q : ℝ, p ≠ 0 → ∃ v, Hier.FullSvd (!![p, q, 0; p, q, 0] : Matrix (Fin 2) (Fin 3) ℝ) v ∧ E.svdLast [[p, p], [q, q], [0, 0]] = some (List.ofFn (v 2))) ∧
      ∀ fuel, ∃ r, olc E (fuel + 2) 4 M.column = .ok r ∧ r.size = 5 ∧ (∀ i j, r.adjmat i j = if i < 4 ∧ j = 4 then 1 else 0) ∧ r.coef 3 4 = 0 ∧
        ∃ k, |k| = Real.sqrt (M.var none) ∧ ∀ i, i < 3 → r.coef i 4 = k * M.load i := by
  obtain ⟨svd, hok, hch⟩ := svd_choice
  set E := idealEnv M eps svd with hEd
  have hE : Ideal M eps E := ideal_env M eps hok
  refine ⟨E, hE, fun p q hp => ⟨_, c168_svd hp, (hch p q hp).trans ?_⟩, fun fuel => ?_⟩
  · simp [List.ofFn_succ]
  have hord : ∀ l, E.order l = l := fun _ => rfl
  have hpo : partialObserved E 4 (pairs (List.range 4)) = [0, 1, 2, 3] := by
    change [(nodes 4).dedup].foldl union [] = _
    decide
  have hudg : pairs (List.range 4) = [(0, 1), (0, 2), (0, 3), (1, 2), (1, 3), (2, 3)] := by decide
  have hpairs : pairs [0, 1, 2, 3] = [(0, 1), (0, 2), (0, 3), (1, 2), (1, 3), (2, 3)] := by decide
  obtain ⟨p1, p2⟩ := phases12 hM hE (n0 := 2) rfl (fuel + 1) ⟨M.column, pairs (List.range 4), []⟩ rfl (by
    intro x y h
    simp [hasEdge, pairs, List.range_succ] at h
    omega)
  set cov := E.cov ((List.range 4).map M.column)
  let s0 : St3 ℝ := ⟨[(0, 1), (0, 2), (0, 3), (1, 2), (1, 3), (2, 3)], [], fun _ _ => 0, fun _ => [], fun _ => [], false, false⟩
  -- the first latent variable
  obtain ⟨A, k, hk, hA0, hA1, hA2, hA3, htry⟩ := tryLatent_first hM hE he hl (s := s0) (l := 4) (x := 0) (y := 1) (z := 2) (fun _ => rfl) (fun _ => rfl)
    (fun _ => rfl) (by omega) (by omega) (by omega) (by omega) (by omega)
  replace hA3 : A 3 4 = 0 := hA3 3 (by omega) (by omega) (by omega)
  have hk0 : k ≠ 0 := by
    rintro rfl
    rw [abs_zero] at hk
    exact (Real.sqrt_pos.2 hM.var).ne hk
  let s1 : St3 ℝ := ⟨removeEdge (removeEdge s0.udg 0 2) 1 2, addArc (addArc (addArc s0.cg 4 0) 4 1) 4 2, A, insertAt (insertAt s0.surrogate 0 2) 1 2,
    insertAt (insertAt (insertAt s0.exogenous 0 4) 1 4) 2 4, true, false⟩
  have hstep1 : step3 E M.column cov 4 4 [0, 1, 2, 3] s0 (0, 1) = .ok s1 := by
    unfold step3
    rw [if_pos (by rfl)]
    have hpt : pairTest E M.column cov s0 0 1 = (s0, 0, 1) := by
      unfold pairTest
      have e1 : inter (s0.surrogate 0) (s0.surrogate 1) = [] := rfl
      have e2 : inter (s0.exogenous 0) (s0.exogenous 1) = [] := rfl
      simp only [e1, e2, hord, List.append_nil, surr_one hM hE s0.A (x := 0) (y := 1) (by omega) (by omega) [], Bool.false_eq_true, if_false,
        List.isEmpty_nil, Bool.not_true, Bool.and_false]
    simp only [hpt]
    unfold latentLoop
    rw [if_pos (by decide)]
    unfold latentLoop
    rw [if_pos (by decide)]
    unfold latentLoop
    rw [if_neg (by decide), if_neg (by exact Bool.eq_false_iff.1 rfl), if_neg (by decide)]
    simp only [htry, if_true]
    rfl
  -- the second time: columns 0, 3 and 1
  let s2 : St3 ℝ := ⟨removeEdge (removeEdge s1.udg 0 1) 3 1, addArc (addArc (addArc s1.cg 4 0) 4 3) 4 1, A, insertAt (insertAt s1.surrogate 0 1) 3 1,
    insertAt (insertAt (insertAt s1.exogenous 0 4) 3 4) 1 4, true, false⟩
  have hstep2 : step3 E M.column cov 4 4 [0, 1, 2, 3] s1 (0, 3) = .ok s2 := by
    unfold step3
    rw [if_pos (by rfl)]
    have hpt : pairTest E M.column cov s1 0 3 = (s1, 0, 3) := by
      unfold pairTest
      have e1 : inter (s1.surrogate 0) (s1.surrogate 3) = [] := rfl
      have e2 : inter (s1.exogenous 0) (s1.exogenous 3) = [] := rfl
      simp only [e1, e2, hord, List.append_nil, surr_one hM hE s1.A (x := 0) (y := 3) (by omega) (by omega) [], Bool.false_eq_true, if_false,
        List.isEmpty_nil, Bool.not_true, Bool.and_false]
    simp only [hpt]
    unfold latentLoop
    rw [if_pos (by decide)]
    unfold latentLoop
    rw [if_neg (by decide), if_neg (by exact Bool.eq_false_iff.1 rfl), if_neg (by decide)]
    have := tryLatent_again hM hE he hl hch (s := s1) (l := 4) (u := 2) (x := 0) (y := 3) (z := 1) hk hA2 hA0 hA1 hA3 (by omega) (by omega) (by omega) (by omega)
      (by omega) (by omega) (by omega) rfl rfl
    simp only [this, if_true]
    rfl
  -- and the third time: columns 2, 3 and 0
  let s3 : St3 ℝ := ⟨removeEdge (removeEdge s2.udg 2 0) 3 0, addArc (addArc (addArc s2.cg 4 2) 4 3) 4 0, A, insertAt (insertAt s2.surrogate 2 0) 3 0,
    insertAt (insertAt (insertAt s2.exogenous 2 4) 3 4) 0 4, true, false⟩
  have hstep3 : step3 E M.column cov 4 4 [0, 1, 2, 3] s2 (2, 3) = .ok s3 := by
    unfold step3
    rw [if_pos (by rfl)]
    have hpt : pairTest E M.column cov s2 2 3 = (s2, 2, 3) := by
      unfold pairTest
      have e1 : inter (s2.surrogate 2) (s2.surrogate 3) = [] := rfl
      have e2 : inter (s2.exogenous 2) (s2.exogenous 3) = [4] := rfl
      simp only [e1, e2, hord, List.append_nil, surr_one hM hE s2.A (x := 2) (y := 3) (by omega) (by omega) [4], Bool.false_eq_true, if_false,
        List.isEmpty_nil, Bool.not_true, Bool.and_false]
    simp only [hpt]
    unfold latentLoop
    rw [if_neg (by decide), if_neg (by exact Bool.eq_false_iff.1 rfl), if_neg (by decide)]
    have := tryLatent_again hM hE he hl hch (s := s2) (l := 4) (u := 1) (x := 2) (y := 3) (z := 0) hk hA1 hA2 hA0 hA3 (by omega) (by omega) (by omega) (by omega)
      (by omega) (by omega) (by omega) rfl rfl
    simp only [this, if_true]
    rfl
  -- the second pass
  let s3' : St3 ℝ := { s3 with latent := false, orient := false }
  let s4 : St3 ℝ := { s3' with udg := removeEdge s3.udg 2 3 }
  have hstep4 : step3 E M.column cov 4 5 [0, 1, 2, 3] s3' (2, 3) = .ok s4 := by
    unfold step3
    rw [if_pos (by rfl)]
    have hpt : pairTest E M.column cov s3' 2 3 = (s4, 2, 3) := by
      unfold pairTest
      have e1 : inter (s3'.surrogate 2) (s3'.surrogate 3) = [0] := rfl
      have e2 : inter (s3'.exogenous 2) (s3'.exogenous 3) = [4] := rfl
      have e3 : E.geBeta (surrPval E M.column s3'.A ([2] ++ [0]) [4] 3) = true := surr_two hM hE A hk0 hA2 hA0 (by omega) (by omega)
      have e4 : hasEdge (removeEdge s3'.udg 2 3) 2 3 = false := rfl
      simp only [e1, e2, hord, e3, if_true, e4, Bool.false_and, Bool.false_eq_true, if_false]
      rfl
    simp only [hpt]
    unfold latentLoop
    rw [if_neg (by decide), if_pos (by rfl)]
    unfold latentLoop
    rw [if_neg (by decide), if_pos (by rfl)]
    unfold latentLoop
    rw [if_pos (by decide)]
    unfold latentLoop
    rw [if_pos (by decide)]
    rfl
  have hf1 : (pairs [0, 1, 2, 3]).foldlM (step3 E M.column cov 4 4 [0, 1, 2, 3]) s0 = .ok s3 := by
    rw [hpairs]
    simp only [List.foldlM_cons, List.foldlM_nil, hstep1, step3_none hM hE (x := 0) (y := 2) (s := s1) rfl, hstep2,
      step3_none hM hE (x := 1) (y := 2) (s := s2) rfl, step3_none hM hE (x := 1) (y := 3) (s := s2) rfl, hstep3, bind, Except.bind, pure, Except.pure]
  have hf2 : (pairs [0, 1, 2, 3]).foldlM (step3 E M.column cov 4 5 [0, 1, 2, 3]) s3' = .ok s4 := by
    rw [hpairs]
    simp only [List.foldlM_cons, List.foldlM_nil, step3_none hM hE (x := 0) (y := 1) (s := s3') rfl, step3_none hM hE (x := 0) (y := 2) (s := s3') rfl,
      step3_none hM hE (x := 0) (y := 3) (s := s3') rfl, step3_none hM hE (x := 1) (y := 2) (s := s3') rfl,
      step3_none hM hE (x := 1) (y := 3) (s := s3') rfl, hstep4, bind, Except.bind, pure, Except.pure]
  have hph : phase3 E M.column cov 4 [0, 1, 2, 3] (fuel + 2) 0 s0 = .ok (s4, 1) := by
    rw [phase3_next (s := s0) (s' := s3) hf1 rfl]
    exact phase3_end (s := s3) (s' := s4) hf2 rfl rfl
  have hcg : s4.cg = [(4, 0), (4, 1), (4, 2), (4, 3)] := by
    change addArc (addArc (addArc (addArc (addArc (addArc (addArc (addArc (addArc [] 4 0) 4 1) 4 2) 4 0) 4 3) 4 1) 4 2) 4 3) 4 0 = _
    decide
  have hug : s4.udg = [] := by
    change removeEdge (removeEdge (removeEdge (removeEdge (removeEdge (removeEdge (removeEdge [(0, 1), (0, 2), (0, 3), (1, 2), (1, 3), (2, 3)] 0 2) 1 2) 0 1) 3 1)
      2 0) 3 0) 2 3 = _
    decide
  have hsA : s4.A = A := rfl
  refine ⟨⟨1 + 4, adjmatOf s4.udg s4.cg, coefOf 4 s4.cg s4.A, M.column⟩, ?_, rfl, ?_, ?_, k, hk, ?_⟩
  · unfold olc
    rw [p1]
    simp only [bind, Except.bind]
    rw [p2]
    simp only [hpo]
    rw [hudg, hph]
    rfl
  · intro i j
    simp only [adjmatOf, hcg, hug, hasEdge, List.mem_cons, Prod.mk.injEq, List.not_mem_nil, or_false, or_self, decide_false, Bool.false_eq_true, if_false]
    refine if_congr ?_ rfl rfl
    omega
  · simp [coefOf, hcg, hsA, hA3]
  · intro i hi
    interval_cases i <;> simp [coefOf, hcg, hsA, hA0, hA1, hA2]

/-- Four columns that are the factor plus noise: the fourth is said to have nothing of it. -/
example : ∃ E : Env (Form 4) ℝ Bool, Ideal ⟨fun _ => 1, fun _ => 1, fun _ => 1⟩ (1 / 100000) E ∧
    ∃ r, olc E 2 4 (Factor.column ⟨fun _ => 1, fun _ => 1, fun _ => 1⟩) = .ok r ∧ r.adjmat 3 4 = 1 ∧ r.coef 3 4 = 0 ∧ |r.coef 0 4| = 1 := by
  obtain ⟨E, h1, -, h2⟩ := c168_four_false (eps := 1 / 100000) (M := ⟨fun _ => 1, fun _ => 1, fun _ => 1⟩) ⟨by simp, by simp, by simp⟩ (by norm_num)
    (fun i _ => by norm_num)
  obtain ⟨r, h3, -, h4, h5, k, hk, h6⟩ := h2 0
  refine ⟨E, h1, r, h3, by rw [h4]; rfl, h5, ?_⟩
  rw [h6 0 (by omega)]
  simpa using hk

end Cdmir.Olc
