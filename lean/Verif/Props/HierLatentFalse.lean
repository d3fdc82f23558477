import Verif.Props.HierLatent
import Verif.Lemmas.TetradLarge
import Mathlib.Analysis.InnerProductSpace.PiL2
import Mathlib.Analysis.InnerProductSpace.Projection.FiniteDimensional
import Mathlib.Analysis.Matrix.PosDef
import Mathlib.Tactic.FinCases

/-! C167: samples, decompositions and estimates as `c167_order` asks for exist; and what goes wrong with clusters of three. -/

set_option linter.unusedSectionVars false

namespace Cdmir.Hier
open BigOperators Matrix

variable {n p : Nat} {L : Type} [Fintype L] [DecidableEq L] {M : LinLat L (Fin p)}

theorem LinLat.Good.source_pos (hM : M.Good) (s : L ⊕ Fin p) : 0 < M.source s := by
  rcases s with j | v
  · exact hM.var j
  · exact hM.noise v

/-- C167: for every model there are samples with its covariances. -/
theorem c167_sample (hM : M.Good) (hn : p + 1 ≤ n) : ∃ data : Fin p → Fin n → ℝ, ∀ u v, Tetrad.cov (data u) (data v) = M.cov u v := by
  have hS : (Matrix.of fun u v => M.cov u v : Matrix (Fin p) (Fin p) ℝ).PosSemidef := by
    have : (Matrix.of fun u v => M.cov u v : Matrix (Fin p) (Fin p) ℝ) =
        (Matrix.of fun (v : Fin p) s => Real.sqrt (M.source s) * M.coef v s) * (Matrix.of fun (v : Fin p) s => Real.sqrt (M.source s) * M.coef v s).conjTranspose := by
      ext u v
      rw [Matrix.mul_apply]
      simp only [Matrix.of_apply, Matrix.conjTranspose_apply, star_trivial, LinLat.cov]
      refine Finset.sum_congr rfl fun s _ => ?_
      have := Real.mul_self_sqrt (hM.source_pos s).le
      linear_combination -(M.coef u s * M.coef v s) * this
    rw [this]
    exact Matrix.posSemidef_self_mul_conjTranspose _
  exact Tetrad.exists_sample hS (by simpa using hn)

/-- The weight of a source in a sum of columns. -/
def form (M : LinLat L (Fin p)) (X : List (Fin p)) (ω : Fin X.length → ℝ) (s : L ⊕ Fin p) : ℝ := ∑ j, ω j * M.coef (X.get j) s

theorem cov_form {data : Fin p → Fin n → ℝ} (hcov : ∀ u v, Tetrad.cov (data u) (data v) = M.cov u v) (X Y : List (Fin p)) (ω : Fin X.length → ℝ)
    (υ : Fin Y.length → ℝ) :
    Tetrad.cov (surrogate data X ω) (surrogate data Y υ) = ∑ s, M.source s * form M X ω s * form M Y υ s := by
  have hsymm : ∀ x y : Fin n → ℝ, Tetrad.cov x y = Tetrad.cov y x := by
    intro x y
    unfold Tetrad.cov
    simp only [mul_comm]
  rw [cov_surrogate]
  have h1 : ∀ j, ω j * Tetrad.cov (data (X.get j)) (surrogate data Y υ) = ∑ s, M.source s * (ω j * M.coef (X.get j) s) * form M Y υ s := by
    intro j
    rw [hsymm, cov_surrogate, Finset.mul_sum]
    unfold form
    simp only [Finset.mul_sum]
    rw [Finset.sum_comm]
    refine Finset.sum_congr rfl fun i _ => ?_
    rw [hcov]
    unfold LinLat.cov
    rw [Finset.mul_sum, Finset.mul_sum]
    refine Finset.sum_congr rfl fun s _ => ?_
    ring
  simp only [h1]
  rw [Finset.sum_comm]
  refine Finset.sum_congr rfl fun s _ => ?_
  rw [show form M X ω s = ∑ j, ω j * M.coef (X.get j) s from rfl, Finset.mul_sum, Finset.sum_mul]

/-- A sum of columns determines the weights of the sources. -/
theorem form_unique (hM : M.Good) {data : Fin p → Fin n → ℝ} (hcov : ∀ u v, Tetrad.cov (data u) (data v) = M.cov u v) {X Y : List (Fin p)}
    {ω : Fin X.length → ℝ} {υ : Fin Y.length → ℝ} (h : surrogate data X ω = surrogate data Y υ) (s : L ⊕ Fin p) : form M X ω s = form M Y υ s := by
  have h1 := cov_form hcov X X ω ω
  have h2 := cov_form hcov X Y ω υ
  have h3 := cov_form hcov Y Y υ υ
  rw [h] at h1 h2
  have h0 : ∑ s, M.source s * (form M X ω s - form M Y υ s) ^ 2 = 0 := by
    have : ∀ s, M.source s * (form M X ω s - form M Y υ s) ^ 2 = M.source s * form M X ω s * form M X ω s -
        2 * (M.source s * form M X ω s * form M Y υ s) + M.source s * form M Y υ s * form M Y υ s := fun s => by ring
    simp only [this]
    rw [Finset.sum_add_distrib, Finset.sum_sub_distrib, ← Finset.mul_sum, ← h1, ← h2, ← h3]
    ring
  have := (Finset.sum_eq_zero_iff_of_nonneg fun s _ => mul_nonneg (hM.source_pos s).le (sq_nonneg _)).1 h0 s (Finset.mem_univ s)
  have := (mul_eq_zero.1 this).resolve_left (hM.source_pos s).ne'
  exact sub_eq_zero.1 (pow_eq_zero_iff two_ne_zero |>.1 this)

/-- C167: for every model and every sample with its covariances there is an ideal estimate of mutual information. -/
theorem c167_oracle (hM : M.Good) {data : Fin p → Fin n → ℝ} (hcov : ∀ u v, Tetrad.cov (data u) (data v) = M.cov u v) :
    ∃ I, Detects M data I := by
  classical
  refine ⟨fun x y => if ∃ (X : List (Fin p)) (ω : Fin X.length → ℝ) (z : Fin p), x = surrogate data X ω ∧ y = data z ∧
    ∀ s, form M X ω s = 0 ∨ M.coef z s = 0 then 0 else 1, fun X ω z => ⟨?_, ?_⟩⟩
  · dsimp only
    split <;> norm_num
  · have hone : ∀ z, data z = surrogate data [z] (fun _ => 1) := by
      intro z
      funext r
      simp [surrogate]
    have hf1 : ∀ z s, form M [z] (fun _ => 1) s = M.coef z s := by
      intro z s
      simp [form]
    constructor
    · intro h
      dsimp only at h
      by_cases hc : ∃ (X' : List (Fin p)) (ω' : Fin X'.length → ℝ) (z' : Fin p), (fun r => ∑ j, ω j * data (X.get j) r) = surrogate data X' ω' ∧
          data z = data z' ∧ ∀ s, form M X' ω' s = 0 ∨ M.coef z' s = 0
      · obtain ⟨X', ω', z', e1, e2, h3⟩ := hc
        intro s
        have h4 := form_unique hM hcov (X := X) (ω := ω) e1 s
        rw [hone z, hone z'] at e2
        have h5 := form_unique hM hcov e2 s
        rw [hf1, hf1] at h5
        change form M X ω s = 0 ∨ _
        rw [h4, h5]
        exact h3 s
      · rw [if_neg hc] at h
        exact absurd h one_ne_zero
    · intro h
      dsimp only
      rw [if_pos ⟨X, ω, z, rfl, rfl, h⟩]

/-- C167: every matrix has a decomposition as `IsSvd` asks for. -/
theorem c167_svd {a b : Nat} (A : Matrix (Fin b) (Fin a) ℝ) : ∃ v, IsSvd A v := by
  classical
  let row : Fin b → EuclideanSpace ℝ (Fin a) := fun i => WithLp.toLp 2 (A i)
  let R : Submodule ℝ (EuclideanSpace ℝ (Fin a)) := Submodule.span ℝ (Set.range row)
  have hR : Module.finrank ℝ R ≤ b := by
    have := finrank_range_le_card (R := ℝ) row
    rw [Fintype.card_fin] at this
    exact this
  have hsum := R.finrank_add_finrank_orthogonal
  rw [finrank_euclideanSpace_fin] at hsum
  let e := stdOrthonormalBasis ℝ Rᗮ
  let f : Fin a → EuclideanSpace ℝ (Fin a) := fun i =>
    if h : b ≤ i.val ∧ i.val - b < Module.finrank ℝ Rᗮ then (e ⟨i.val - b, h.2⟩ : EuclideanSpace ℝ (Fin a)) else 0
  have hlt : ∀ i : Fin a, b ≤ i.val → i.val - b < Module.finrank ℝ Rᗮ := fun i hi => by
    have := i.2
    omega
  have hf : ∀ i : Fin a, ∀ hi : b ≤ i.val, f i = (e ⟨i.val - b, hlt i hi⟩ : EuclideanSpace ℝ (Fin a)) := fun i hi => dif_pos ⟨hi, hlt i hi⟩
  have hon : Orthonormal ℝ (({i : Fin a | b ≤ i.val} : Set (Fin a)).domRestrict f) := by
    have h1 := e.orthonormal.comp_linearIsometry Rᗮ.subtypeₗᵢ
    have h2 := h1.comp (fun i : {i : Fin a | b ≤ i.val} => (⟨i.1.val - b, hlt i.1 i.2⟩ : Fin (Module.finrank ℝ Rᗮ))) (by
      rintro ⟨i, hi⟩ ⟨j, hj⟩ hij
      simp only [Set.mem_ofPred_eq] at hi hj
      have := Fin.mk.inj hij
      apply Subtype.ext
      apply Fin.ext
      simp only at this ⊢
      omega)
    convert h2 using 1
    funext i
    exact hf i.1 i.2
  obtain ⟨B, hB⟩ := hon.exists_orthonormalBasis_extension_of_card_eq (by simp)
  let v : Matrix (Fin a) (Fin a) ℝ := Matrix.of fun i j => B i j
  have hv : v * v.transpose = 1 := by
    ext i j
    have := orthonormal_iff_ite.1 B.orthonormal i j
    rw [PiLp.inner_apply] at this
    rw [Matrix.mul_apply, Matrix.one_apply, ← this]
    refine Finset.sum_congr rfl fun k _ => ?_
    simp [v, mul_comm]
  have hker : ∀ i, ∀ k : Fin a, b ≤ k.val → (A * v.transpose) i k = 0 := by
    intro i k hk
    have h1 : (f k : EuclideanSpace ℝ (Fin a)) ∈ Rᗮ := by
      rw [hf k hk]
      exact Subtype.mem _
    have h2 := (Submodule.mem_orthogonal R _).1 h1 (row i) (Submodule.subset_span ⟨i, rfl⟩)
    rw [← hB k hk, PiLp.inner_apply] at h2
    rw [Matrix.mul_apply, ← h2]
    refine Finset.sum_congr rfl fun j _ => ?_
    simp [v, row, mul_comm]
  refine ⟨v, hv, Matrix.of fun i k => if h : k.val < a then (A * v.transpose) i ⟨k.val, h⟩ else 0, fun _ => 1, ?_⟩
  have hD : (Matrix.of fun (i k : Fin b) => if h : k.val < a then (A * v.transpose) i ⟨k.val, h⟩ else 0) *
      (Matrix.of fun (i : Fin b) (j : Fin a) => if i.val = j.val then (1 : ℝ) else 0) = A * v.transpose := by
    ext i k
    rw [Matrix.mul_apply]
    by_cases hk : k.val < b
    · rw [Finset.sum_eq_single (⟨k.val, hk⟩ : Fin b)]
      · simp
      · intro l _ hl
        have : l.val ≠ k.val := fun e => hl (Fin.ext e)
        simp [this]
      · simp
    · rw [hker i k (by omega)]
      refine Finset.sum_eq_zero fun l _ => ?_
      have : l.val ≠ k.val := by
        have := l.2
        omega
      simp [this]
  rw [hD, Matrix.mul_assoc, mul_eq_one_comm.1 hv, Matrix.mul_one]

/-- Two latent variables, the first a cause of the second. -/
noncomputable def twoLat (of : Fin p → Fin 2) : LinLat (Fin 2) (Fin p) where
  rank := Fin.val
  direct i k := if i = 1 ∧ k = 0 then 1 / 7 else 0
  total i k := if i = k then 1 else if i = 1 then 1 / 7 else 0
  var i := if i = 0 then 7 else 48 / 7
  of := of
  load _ := 1
  noise _ := 1

theorem twoLat_good (of : Fin p → Fin 2) : (twoLat of).Good where
  acyclic i k h := by
    fin_cases i <;> fin_cases k <;> simp [twoLat] at h ⊢
  total_eq i j := by
    fin_cases i <;> fin_cases j <;> simp [twoLat]
  var i := by
    fin_cases i <;> norm_num [twoLat]
  load v := one_ne_zero
  noise v := one_pos

/-- The conditions of `c167_order` can be met, with the pair of the effect first in the dictionary; it comes last in the order. -/
example : ∃ (data : Fin 4 → Fin 5 → ℝ) (svd : {a b : Nat} → Matrix (Fin b) (Fin a) ℝ → Matrix (Fin a) (Fin a) ℝ) (I : (Fin 5 → ℝ) → (Fin 5 → ℝ) → ℝ),
    (∀ u v, Tetrad.cov (data u) (data v) = (twoLat ![0, 0, 1, 1]).cov u v) ∧
      (∀ X Z, Z.length < X.length → IsSvd (crossCov data X Z) (svd (crossCov data X Z))) ∧ Detects (twoLat ![0, 0, 1, 1]) data I ∧
      learnOrder (ginData svd I data) [(1, [[2, 3], [0, 1]])] = .ok [[0, 1], [2, 3]] := by
  have hM := twoLat_good (p := 4) ![0, 0, 1, 1]
  obtain ⟨data, hcov⟩ := c167_sample (n := 5) hM (by norm_num)
  obtain ⟨I, hI⟩ := c167_oracle hM hcov
  refine ⟨data, fun A => Classical.choose (c167_svd A), I, hcov, fun X Z _ => Classical.choose_spec (c167_svd (crossCov data X Z)), hI, ?_⟩
  obtain ⟨K, h1, h2, h3⟩ := c167_order (svd := fun A => Classical.choose (c167_svd A)) (cluster := [(1, [[2, 3], [0, 1]])]) hM hcov
    (fun X Z _ => Classical.choose_spec (c167_svd (crossCov data X Z))) hI
    { pair := by
        intro c hc
        simp at hc
        rcases hc with rfl | rfl
        · exact ⟨2, 3, rfl, by decide, rfl⟩
        · exact ⟨0, 1, rfl, by decide, rfl⟩
      apart := by simp [twoLat]
      all := by
        intro l
        fin_cases l
        · exact ⟨[0, 1], by simp, 0, by simp, rfl⟩
        · exact ⟨[2, 3], by simp, 2, by simp, rfl⟩ }
  have hs := h3 [0, 1] (h2.symm.subset (by simp)) [2, 3] (h2.symm.subset (by simp)) 0 (by simp) 2 (by simp) (by
    have e : (twoLat ![0, 0, 1, 1]).of (2 : Fin 4) = 1 := rfl
    rw [e]
    norm_num [twoLat])
  rw [h1, hs.eq_of_length (by rw [h2.length_eq]; rfl)]

/-- All that `np.linalg.svd` promises of its third factor: the first factor is orthogonal as well, and the singular values are not negative and sorted. -/
def FullSvd {a b : Nat} (A : Matrix (Fin b) (Fin a) ℝ) (v : Matrix (Fin a) (Fin a) ℝ) : Prop :=
  v * v.transpose = 1 ∧ ∃ (u : Matrix (Fin b) (Fin b) ℝ) (s : Nat → ℝ), u * u.transpose = 1 ∧ (∀ i, 0 ≤ s i) ∧ (∀ i j, i ≤ j → s j ≤ s i) ∧
    A = u * (Matrix.of fun (i : Fin b) (j : Fin a) => if i.val = j.val then s i.val else 0) * v

theorem FullSvd.isSvd {a b : Nat} {A : Matrix (Fin b) (Fin a) ℝ} {v : Matrix (Fin a) (Fin a) ℝ} (h : FullSvd A v) : IsSvd A v :=
  ⟨h.1, h.2.imp fun _ ⟨s, _, _, _, e⟩ => ⟨s, e⟩⟩

/-- A decomposition of the row that belongs to a cluster of three, with a difference within the cluster as its last vector. -/
noncomputable def tilt : Matrix (Fin 4) (Fin 4) ℝ :=
  !![7 / 10, 7 / 10, 1 / 10, 1 / 10; 1 / 10, 1 / 10, -7 / 10, -7 / 10; 0, 0, 1 / Real.sqrt 2, -1 / Real.sqrt 2; 1 / Real.sqrt 2, -1 / Real.sqrt 2, 0, 0]

theorem tilt_full : FullSvd (!![7, 7, 1, 1] : Matrix (Fin 1) (Fin 4) ℝ) tilt := by
  have h2 : (1 / Real.sqrt 2) * (1 / Real.sqrt 2) = 1 / 2 := by
    rw [div_mul_div_comm, Real.mul_self_sqrt (by norm_num), one_mul]
  refine ⟨?_, 1, fun i => if i = 0 then 10 else 0, by simp, fun i => by dsimp only; split <;> norm_num, fun i j hij => ?_, ?_⟩
  · have h3 : -1 / Real.sqrt 2 = -(1 / Real.sqrt 2) := by ring
    unfold tilt
    rw [h3]
    generalize 1 / Real.sqrt 2 = t at h2
    ext i j
    fin_cases i <;> fin_cases j <;> simp [Matrix.mul_apply, Fin.sum_univ_four] <;> nlinarith
  · by_cases hj : j = 0
    · have : i = 0 := by omega
      simp [hj, this]
    · dsimp only
      rw [if_neg hj]
      split <;> norm_num
  · ext i j
    fin_cases i
    fin_cases j <;> simp [Matrix.mul_apply, Fin.sum_univ_four, tilt] <;> norm_num

theorem order_two {gin : List (Fin p) → List (Fin p) → Except Err ℝ} {c d : List (Fin p)} (h : findRoot gin [c, d] [] = .ok c) :
    learnOrder gin [(1, [c, d])] = .ok [c, d] := by
  have e : ([c, d] : List (List (Fin p))).erase c = [d] := List.erase_cons_head _ _
  have e' : ([d] : List (List (Fin p))).erase d = [] := List.erase_cons_head _ _
  have h1 : orderLoop gin 1 [d] [c] = .ok [c, d] := by
    simp only [orderLoop, findRoot, bind, Except.bind, pure, Except.pure, e']
    rfl
  have h2 : orderLoop gin 2 [c, d] [] = .ok [c, d] := by
    simp only [orderLoop, h, bind, Except.bind, e]
    exact h1
  exact h2

/-- C167 does not hold for clusters of three: the row of covariances then has many decompositions, and with one of them the surrogate is a difference
within the cluster, which tells nothing. Every value is zero, and the order is that of the dictionary, with the effect first. -/
theorem c167_three_false : ∃ (M : LinLat (Fin 2) (Fin 6)) (data : Fin 6 → Fin 7 → ℝ)
    (svd : {a b : Nat} → Matrix (Fin b) (Fin a) ℝ → Matrix (Fin a) (Fin a) ℝ) (I : (Fin 7 → ℝ) → (Fin 7 → ℝ) → ℝ),
    M.Good ∧ M.of 0 = 0 ∧ M.of 1 = 0 ∧ M.of 2 = 0 ∧ M.of 3 = 1 ∧ M.of 4 = 1 ∧ M.of 5 = 1 ∧ M.direct 1 0 ≠ 0 ∧
      (∀ u v, Tetrad.cov (data u) (data v) = M.cov u v) ∧ Detects M data I ∧
      FullSvd (crossCov data [3, 4, 0, 1] [5]) (svd (crossCov data [3, 4, 0, 1] [5])) ∧
      FullSvd (crossCov data [0, 1, 3, 4] [2]) (svd (crossCov data [0, 1, 3, 4] [2])) ∧
      learnOrder (ginData svd I data) [(1, [[3, 4, 5], [0, 1, 2]])] = .ok [[3, 4, 5], [0, 1, 2]] := by
  classical
  have hM := twoLat_good (p := 6) ![0, 0, 0, 1, 1, 1]
  set M := twoLat (p := 6) ![0, 0, 0, 1, 1, 1] with hMd
  obtain ⟨data, hcov⟩ := c167_sample (n := 7) hM (by norm_num)
  obtain ⟨I, hI⟩ := c167_oracle hM hcov
  let svd : {a b : Nat} → Matrix (Fin b) (Fin a) ℝ → Matrix (Fin a) (Fin a) ℝ := fun {a b} A =>
    if h : ∃ v, FullSvd A v ∧ ∀ i j : Fin a, i.val = 3 → 2 ≤ j.val → v i j = 0 then Classical.choose h else 1
  have hsvd : ∀ A : Matrix (Fin 1) (Fin 4) ℝ, A = !![7, 7, 1, 1] → FullSvd A (svd A) ∧ ∀ i j : Fin 4, i.val = 3 → 2 ≤ j.val → svd A i j = 0 := by
    rintro A rfl
    have h : ∃ v, FullSvd (!![7, 7, 1, 1] : Matrix (Fin 1) (Fin 4) ℝ) v ∧ ∀ i j : Fin 4, i.val = 3 → 2 ≤ j.val → v i j = 0 := by
      refine ⟨tilt, tilt_full, fun i j hi hj => ?_⟩
      fin_cases i <;> fin_cases j <;> simp_all [tilt]
    have e : svd (!![7, 7, 1, 1] : Matrix (Fin 1) (Fin 4) ℝ) = Classical.choose h := dif_pos h
    rw [e]
    exact Classical.choose_spec h
  have hsame : ∀ u v, u ≠ v → M.of u = M.of v → M.cov u v = 7 := by
    intro u v huv e
    unfold LinLat.cov
    rw [Fintype.sum_sum_type]
    have h0 : ∑ x, M.source (Sum.inr x) * M.coef u (Sum.inr x) * M.coef v (Sum.inr x) = 0 := by
      refine Finset.sum_eq_zero fun x _ => ?_
      simp only [LinLat.coef, Sum.elim_inr]
      by_cases hx : x = u
      · rw [if_neg (fun e => huv (hx ▸ e)), mul_zero]
      · rw [if_neg hx, mul_zero, zero_mul]
    rw [h0, add_zero]
    simp only [LinLat.coef, Sum.elim_inl, e]
    generalize M.of v = l
    fin_cases l
    · simp [hMd, twoLat, LinLat.source]
    · simp [hMd, twoLat, LinLat.source, Fin.sum_univ_two]
      norm_num
  have hdiff : ∀ u v, M.of u ≠ M.of v → M.cov u v = 1 := by
    intro u v huv
    unfold LinLat.cov
    rw [Fintype.sum_sum_type]
    have h0 : ∑ x, M.source (Sum.inr x) * M.coef u (Sum.inr x) * M.coef v (Sum.inr x) = 0 := by
      refine Finset.sum_eq_zero fun x _ => ?_
      simp only [LinLat.coef, Sum.elim_inr]
      by_cases hx : x = u
      · rw [if_neg (fun e : x = v => huv (by rw [← hx, ← e])), mul_zero]
      · rw [if_neg hx, mul_zero, zero_mul]
    rw [h0, add_zero]
    simp only [LinLat.coef, Sum.elim_inl]
    generalize M.of v = l at huv ⊢
    generalize M.of u = k at huv ⊢
    fin_cases l <;> fin_cases k <;> simp [hMd, twoLat, LinLat.source, Fin.sum_univ_two] at huv ⊢
  have hgin : ∀ a b c d z : Fin 6, [a, b, c, d, z].Nodup → M.of a = M.of z → M.of b = M.of z → M.of c ≠ M.of z → M.of d ≠ M.of z →
      FullSvd (crossCov data [a, b, c, d] [z]) (svd (crossCov data [a, b, c, d] [z])) ∧ ginData svd I data [a, b, c, d] [z] = .ok 0 := by
    intro a b c d z hn ha hb hc hd
    have hA : crossCov data [a, b, c, d] [z] = (!![7, 7, 1, 1] : Matrix (Fin 1) (Fin 4) ℝ) := by
      simp only [List.nodup_cons, List.mem_cons, List.not_mem_nil, or_false, not_or] at hn
      ext i j
      have hi : ([z] : List (Fin 6)).get i = z := by
        fin_cases i
        rfl
      unfold crossCov
      simp only [Matrix.of_apply]
      rw [hi, hcov]
      fin_cases i
      fin_cases j
      · exact hsame a z hn.1.2.2.2 ha
      · exact hsame b z hn.2.1.2.2 hb
      · exact hdiff c z hc
      · exact hdiff d z hd
    obtain ⟨h1, h2⟩ := hsvd _ hA
    refine ⟨h1, ?_⟩
    obtain ⟨ω, h3, -, h5⟩ := c104_uncorrelated_partial (svd := svd) data [a, b, c, d] [z] h1.isSvd (by simp)
    have hω : ∀ j : Fin 4, 2 ≤ j.val → ω j = 0 := by
      intro j hj
      have h6 : getomega svd data [a, b, c, d] [z] = .ok (fun j => svd (crossCov data [a, b, c, d] [z]) ⟨3, by simp⟩ j) := rfl
      rw [h6] at h3
      cases h3
      exact h2 ⟨3, by norm_num⟩ j rfl hj
    have hz : z ∉ ([a, b, c, d] : List (Fin 6)) := by
      simp only [List.nodup_cons, List.mem_cons, List.not_mem_nil, or_false, not_or] at hn ⊢
      exact ⟨Ne.symm hn.1.2.2.2, Ne.symm hn.2.1.2.2, Ne.symm hn.2.2.1.2, Ne.symm hn.2.2.2.1⟩
    have hsum : ∀ F : Fin 6 → ℝ, ∑ j, ω j * F (([a, b, c, d] : List (Fin 6)).get j) = ω (0 : Fin 4) * F a + ω (1 : Fin 4) * F b := by
      intro F
      have := Fin.sum_univ_four fun j : Fin 4 => ω j * F (([a, b, c, d] : List (Fin 6)).get j)
      refine this.trans ?_
      rw [hω 2 le_rfl, hω 3 (by decide), zero_mul, zero_mul, add_zero, add_zero]
      rfl
    have hab : ω (1 : Fin 4) = -ω (0 : Fin 4) := by
      have h6 := h5 z (by simp)
      simp only [List.nodup_cons, List.mem_cons, List.not_mem_nil, or_false, not_or] at hn
      rw [cov_surrogate, hsum fun v => Tetrad.cov (data v) (data z), hcov, hcov, hsame a z hn.1.2.2.2 ha, hsame b z hn.2.1.2.2 hb] at h6
      linarith
    rw [ginData_ok (by simp) h3]
    have : I (surrogate data [a, b, c, d] ω) (data z) = 0 := by
      rw [(detects_iff hM hI hz).2]
      intro j
      left
      have h7 := share_sum [a, b, c, d] ω fun v => M.load v * M.total (M.of v) j
      unfold LinLat.weight
      rw [← h7, hsum fun v => M.load v * M.total (M.of v) j, ha, hb, hab]
      have e : ∀ v, M.load v = 1 := fun _ => rfl
      rw [e, e]
      ring
    simp [this]
  obtain ⟨s1, g1⟩ := hgin 3 4 0 1 5 (by decide) rfl rfl (by decide) (by decide)
  obtain ⟨s2, g2⟩ := hgin 0 1 3 4 2 (by decide) rfl rfl (by decide) (by decide)
  refine ⟨M, data, svd, I, hM, rfl, rfl, rfl, rfl, rfl, rfl, by simp [hMd, twoLat], hcov, hI, s1, s2, ?_⟩
  have e1 : (setX [3, 4, 5] [0, 1, 2] [] : List (Fin 6)) = [3, 4, 0, 1] := by decide
  have e2 : (setZ [3, 4, 5] [] : List (Fin 6)) = [5] := by decide
  have e3 : (setX [0, 1, 2] [3, 4, 5] [] : List (Fin 6)) = [0, 1, 3, 4] := by decide
  have e4 : (setZ [0, 1, 2] [] : List (Fin 6)) = [2] := by decide
  have e5 : ([[3, 4, 5], [0, 1, 2]] : List (List (Fin 6))).erase [3, 4, 5] = [[0, 1, 2]] := by decide
  have e6 : ([[3, 4, 5], [0, 1, 2]] : List (List (Fin 6))).erase [0, 1, 2] = [[3, 4, 5]] := by decide
  have hroot : findRoot (ginData svd I data) [[3, 4, 5], [0, 1, 2]] [] = .ok [3, 4, 5] := by
    unfold findRoot
    simp only [List.mapM_cons, List.mapM_nil, e5, e6, score, e1, e2, e3, e4, g1, g2, bind, Except.bind, pure, Except.pure, firstMin, add_zero, lt_irrefl, if_false]
  exact order_two hroot

end Cdmir.Hier
