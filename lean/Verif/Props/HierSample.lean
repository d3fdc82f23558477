import Verif.Props.HierModel
import Verif.Lemmas.TetradLarge
import Verif.Lemmas.NormCdf
import Verif.Lemmas.Dict

/-! Property C165 for samples: with enough rows the tests of the code are exact on a sample with the covariances of the model. -/

set_option linter.unusedSectionVars false

namespace Cdmir.Hier
open Cdmir.Fisher (normCdf normCdf_zero)

variable {V L : Type} [LinearOrder V]

/-- The data frame with these names and columns. -/
def table {n : Nat} (names : List V) (x : V → Fin n → ℝ) : Frame V (Fin n → ℝ) := names.map fun v => (v, x v)

theorem table_keys {n : Nat} (names : List V) (x : V → Fin n → ℝ) : dkeys (table names x) = names := by
  simp [dkeys, table, Function.comp_def]

theorem table_get {n : Nat} {names : List V} (x : V → Fin n → ℝ) {v : V} (h : v ∈ names) : dgetE (table names x) v = .ok (x v) := by
  apply dgetE_of
  induction names with
  | nil => simp at h
  | cons w t ih =>
    change dget ((w, x w) :: table t x) v = _
    rw [dget_cons]
    by_cases e : w = v
    · rw [if_pos e, e]
    · rw [if_neg e]
      exact ih ((List.mem_cons.1 h).resolve_left fun e' => e e'.symm)

/-- C165: at every level between 0 and 1, from some number of rows on, the tests are exact on every sample with the covariances `σ`. -/
theorem c165_exact [Fintype V] {σ : V → V → ℝ} (hS : (Matrix.of σ).PosDef) {alpha : ℝ} (ha : 0 < alpha) (ha' : alpha < 1) :
    ∃ N : Nat, ∀ n ≥ N, ∀ x : V → Fin n → ℝ, (∀ u v, Tetrad.cov (x u) (x v) = σ u v) → ∀ (names : List V) (env : Env V (Fin n → ℝ)),
      env.van = Tetrad.vanishes normCdf alpha → Exact env (table names x) σ := by
  classical
  have h4 : ∀ t : V × V × V × V, [t.1, t.2.1, t.2.2.1, t.2.2.2].Nodup → ∃ N : Nat, ∀ n ≥ N, ∀ x : V → Fin n → ℝ,
      (∀ u v, Tetrad.cov (x u) (x v) = σ u v) → ∃ b, Tetrad.vanishes normCdf alpha (x t.1) (x t.2.1) (x t.2.2.1) (x t.2.2.2) = .ok b ∧
        (b = true ↔ σ t.1 t.2.2.1 * σ t.2.1 t.2.2.2 = σ t.1 t.2.2.2 * σ t.2.1 t.2.2.1) := by
    rintro ⟨i, j, k, l⟩ hnd
    have hinj : Function.Injective ![i, j, k, l] := by
      simp only [List.nodup_cons, List.mem_cons, List.not_mem_nil, or_false, not_or] at hnd
      obtain ⟨⟨h1, h2, h3⟩, ⟨h4, h5⟩, h6, -⟩ := hnd
      intro p q hpq
      fin_cases p <;> fin_cases q <;> simp_all
    obtain ⟨N, hN⟩ := Tetrad.vanishes_four normCdf_zero (ProbabilityTheory.tendsto_cdf_atBot _) ha ha'
      ((Matrix.of σ).submatrix ![i, j, k, l] ![i, j, k, l]) (hS.submatrix hinj)
    refine ⟨N, fun n hn x hx => ?_⟩
    obtain ⟨b, h1, h2⟩ := hN n hn (fun p => x (![i, j, k, l] p)) (by
      ext p q
      exact hx _ _)
    exact ⟨b, h1, h2⟩
  choose! N hN using h4
  refine ⟨Finset.univ.sup N, fun n hn x hx names env henv i hi j hj k hk l hl hnd => ?_⟩
  rw [table_keys] at hi hj hk hl
  obtain ⟨b, h1, h2⟩ := hN (i, j, k, l) hnd n ((Finset.le_sup (f := N) (Finset.mem_univ _)).trans hn) x hx
  refine ⟨b, ?_, h2⟩
  unfold vanE
  rw [table_get x hi, table_get x hj, table_get x hk, table_get x hl, henv]
  exact h1

/-- The covariances of the observed variables are positive definite if the noise is uncorrelated with positive variances. -/
theorem Measured.posDef {V L : Type} [Fintype V] [Fintype L] {M : Measured V L} (hL : (Matrix.of M.lcov).PosSemidef)
    (h0 : ∀ u v, u ≠ v → M.noise u v = 0) (hpos : ∀ v, 0 < M.noise v v) : (Matrix.of M.cov).PosDef := by
  classical
  let A : Matrix L V ℝ := Matrix.of fun l v => if M.latent v = l then M.load v else 0
  have e : Matrix.of M.cov = A.conjTranspose * Matrix.of M.lcov * A + Matrix.diagonal fun v => M.noise v v := by
    ext u v
    rw [Matrix.add_apply, Matrix.mul_apply]
    simp only [Matrix.mul_apply, A, Matrix.of_apply, Matrix.conjTranspose_apply, star_trivial, ite_mul, zero_mul, Finset.sum_ite_eq,
      Finset.mem_univ, if_true, mul_ite, mul_zero, Matrix.diagonal_apply]
    unfold Measured.cov
    by_cases huv : u = v
    · rw [if_pos huv, huv]
      ring
    · rw [if_neg huv, h0 u v huv]
      ring
  rw [e]
  exact (Matrix.PosDef.diagonal hpos).posSemidef_add (hL.conjTranspose_mul_mul_same A)

/-- **C165 for samples.** For a measurement model with a positive definite covariance matrix and every level between 0 and 1 there is a number of rows from
which on there are samples with the covariances of the model, and `FindCausalCluster` with the tetrad tests of the code finds on every one of them exactly
the sets of variables that measure the same latent variable. -/
theorem c165_sample [Fintype V] {M : Measured V L} {names : List V} (hd : names.Nodup) (hM : M.Good names) (h4 : 4 ≤ names.length)
    (hS : (Matrix.of M.cov).PosDef) {alpha : ℝ} (ha : 0 < alpha) (ha' : alpha < 1) :
    ∃ N : Nat, ∀ n ≥ N, (∃ x : V → Fin n → ℝ, ∀ u v, Tetrad.cov (x u) (x v) = M.cov u v) ∧
      ∀ x : V → Fin n → ℝ, (∀ u v, Tetrad.cov (x u) (x v) = M.cov u v) → ∀ env : Env V (Fin n → ℝ), env.van = Tetrad.vanishes normCdf alpha →
        (∀ l, (env.order l).Perm l) → (∀ l, (env.idxOrder l).Perm l) → ∀ p i, ∃ f np ni, findCausalCluster env (table names x) p i = .ok f ∧
          (∀ S ∈ f.learned, S.Nodup ∧ 2 ≤ S.length ∧ ∀ v ∈ S, v ∈ names) ∧ f.learned.Pairwise (fun S T => ∀ x, x ∈ S → x ∉ T) ∧
          (∀ u ∈ names, ∀ v ∈ names, (∃ S ∈ f.learned, u ∈ S ∧ v ∈ S) ↔ M.latent u = M.latent v) ∧
          f.pures = p ++ np ∧ f.impures = i ++ ni ∧ (np ++ ni).Perm f.learned ∧
          ∀ S ∈ f.learned, S ∈ ni ↔ ∃ u v, S = [u, v] ∧ ∀ k ∈ names, ∀ s ∈ names, k ∉ S → s ∉ S → k ≠ s →
            M.cov u v * M.cov k s ≠ M.cov u s * M.cov k v := by
  obtain ⟨N, hN⟩ := c165_exact hS ha ha'
  refine ⟨max N (Fintype.card V + 1), fun n hn => ⟨Tetrad.exists_sample hS.posSemidef ((le_max_right _ _).trans hn), fun x hx env henv ho hi p i => ?_⟩⟩
  have hE := hN n ((le_max_left _ _).trans hn) x hx names env henv
  have hk := table_keys names x
  have := c165_find ho hi (d := table names x) (by rw [hk]; exact hd) (M := M) (by rw [hk]; exact hM) hE (by rw [hk]; exact h4) p i
  rw [hk] at this
  exact this

section examples

/-- One latent variable causes two others; each is measured twice. -/
noncomputable def exM : Measured (Fin 6) (Fin 3) where
  latent v := ![0, 0, 1, 1, 2, 2] v
  load v := ![1, -1, 1, 2, 1, 3] v
  lcov p q := !![2, 1, 1; 1, 1, 1; 1, 1, 2] p q
  noise u v := if u = v then 1 else 0

theorem exM_pure : exM.Pure (List.finRange 6) where
  load v _ := by fin_cases v <;> simp [exM]
  lsymm u _ v _ := by fin_cases u <;> fin_cases v <;> simp [exM]
  corr u _ v _ h := by
    fin_cases u <;> fin_cases v <;> simp [exM] at h ⊢ <;> norm_num
  two v _ := by
    fin_cases v
    · exact ⟨1, by simp, by decide, rfl⟩
    · exact ⟨0, by simp, by decide, rfl⟩
    · exact ⟨3, by simp, by decide, rfl⟩
    · exact ⟨2, by simp, by decide, rfl⟩
    · exact ⟨5, by simp, by decide, rfl⟩
    · exact ⟨4, by simp, by decide, rfl⟩
  noise u _ v _ h := if_neg h

theorem exM_posDef : (Matrix.of exM.cov).PosDef := by
  refine Measured.posDef ?_ (fun u v h => if_neg h) (fun v => by simp [exM])
  have e : Matrix.of exM.lcov = !![1, 1, 0; 1, 0, 0; 1, 0, 1] * (1 : Matrix (Fin 3) (Fin 3) ℝ) * (!![1, 1, 0; 1, 0, 0; 1, 0, 1] : Matrix (Fin 3) (Fin 3) ℝ).conjTranspose := by
    ext p q
    fin_cases p <;> fin_cases q <;> simp [exM, Matrix.mul_apply, Fin.sum_univ_three] <;> norm_num
  rw [e]
  exact Matrix.PosSemidef.one.mul_mul_conjTranspose_same _

/-- The tests of the code at the level 0.01; sets are read backwards. -/
noncomputable def exEnv (m n : Nat) : Env (Fin (m + 1)) (Fin n → ℝ) := ⟨Tetrad.vanishes normCdf (1 / 100), List.reverse, id, fun _ => 0, n⟩

theorem exEnv_exact {m : Nat} {σ : Fin (m + 1) → Fin (m + 1) → ℝ} (h : (Matrix.of σ).PosDef) :
    ∃ (n : Nat) (x : Fin (m + 1) → Fin n → ℝ), (∀ u v, Tetrad.cov (x u) (x v) = σ u v) ∧ Exact (exEnv m n) (table (List.finRange (m + 1)) x) σ := by
  obtain ⟨N, hN⟩ := c165_exact h (alpha := 1 / 100) (by norm_num) (by norm_num)
  obtain ⟨x, hx⟩ := Tetrad.exists_sample (n := max N (Fintype.card (Fin (m + 1)) + 1)) h.posSemidef (le_max_right _ _)
  exact ⟨_, x, hx, hN _ (le_max_left _ _) x hx _ _ rfl⟩

/-- c165_pair on a sample. -/
example : ∃ (n : Nat) (x : Fin 6 → Fin n → ℝ), (∀ u v, Tetrad.cov (x u) (x v) = exM.cov u v) ∧
    check (exEnv 5 n) (table (List.finRange 6) x) [0, 1] = .ok true ∧ check (exEnv 5 n) (table (List.finRange 6) x) [0, 2] = .ok false := by
  obtain ⟨n, x, hx, hE⟩ := exEnv_exact exM_posDef
  have hk := table_keys (List.finRange 6) x
  have key := fun {u v : Fin 6} (huv : u ≠ v) => c165_pair (env := exEnv 5 n) (fun l => List.reverse_perm l) (d := table (List.finRange 6) x)
    (by rw [hk]; exact List.nodup_finRange 6) (M := exM) (by rw [hk]; exact exM_pure.good) hE (by rw [hk]; simp) (x := u) (y := v)
    (by rw [hk]; simp) (by rw [hk]; simp) huv
  refine ⟨n, x, hx, ?_, ?_⟩
  · obtain ⟨b, h1, h2⟩ := key (u := 0) (v := 1) (by decide)
    rw [h1, h2.2 rfl]
  · obtain ⟨b, h1, h2⟩ := key (u := 0) (v := 2) (by decide)
    have : b ≠ true := fun e => absurd (h2.1 e) (by simp [exM])
    rw [h1, Bool.eq_false_of_not_eq_true this]

theorem exM_class (c : Fin 3) : ((List.finRange 6).filter fun v => exM.latent v = c).length = 2 := by
  revert c
  decide

/-- c165_find and c165_pure on a sample: all three clusters are found, and only that of the common cause is recorded as pure. -/
example : ∃ (n : Nat) (x : Fin 6 → Fin n → ℝ) (f : Found (Fin 6)) (np ni : List (List (Fin 6))), (∀ u v, Tetrad.cov (x u) (x v) = exM.cov u v) ∧
    findCausalCluster (exEnv 5 n) (table (List.finRange 6) x) [] [] = .ok f ∧ f.pures = np ∧ f.impures = ni ∧
    (∀ u v : Fin 6, (∃ S ∈ f.learned, u ∈ S ∧ v ∈ S) ↔ exM.latent u = exM.latent v) ∧ ∀ S ∈ f.learned, S ∈ ni ↔ 2 ∉ S := by
  obtain ⟨n, x, hx, hE⟩ := exEnv_exact exM_posDef
  have hk := table_keys (List.finRange 6) x
  obtain ⟨f, np, ni, h1, h2, h3, -, h5, h6⟩ := c165_pure (env := exEnv 5 n) (fun l => List.reverse_perm l) (fun _ => List.Perm.refl _)
    (d := table (List.finRange 6) x) (by rw [hk]; exact List.nodup_finRange 6) (M := exM) (by rw [hk]; exact exM_pure) hE (by rw [hk]; simp) [] []
  obtain ⟨f', np', ni', g1, g2, g3, -⟩ := c165_find (env := exEnv 5 n) (fun l => List.reverse_perm l) (fun _ => List.Perm.refl _)
    (d := table (List.finRange 6) x) (by rw [hk]; exact List.nodup_finRange 6) (M := exM) (by rw [hk]; exact exM_pure.good) hE (by rw [hk]; simp) [] []
  rw [h1] at g1
  cases g1
  rw [hk] at h5 h6
  have h5' : ∀ u v : Fin 6, (∃ S ∈ f.learned, u ∈ S ∧ v ∈ S) ↔ exM.latent u = exM.latent v := fun u v => h5 u (by simp) v (by simp)
  refine ⟨n, x, f, np, ni, hx, h1, h2, h3, h5', fun S hS => ?_⟩
  have hsame : ∀ u ∈ S, ∀ v ∈ S, exM.latent u = exM.latent v := fun u hu v hv => (h5' u v).1 ⟨S, hS, hu, hv⟩
  have hall : ∀ u ∈ S, ∀ v, exM.latent u = exM.latent v → v ∈ S := by
    intro u hu v e
    obtain ⟨T, hT, huT, hvT⟩ := (h5' u v).2 e
    rwa [pairwise_same g3 hS hT hu huT]
  obtain ⟨hnd, hl2, -⟩ := g2 S hS
  have hlen : S.length = 2 := by
    obtain ⟨u, hu⟩ := List.exists_mem_of_length_pos (by omega : 0 < S.length)
    have : S.Subperm ((List.finRange 6).filter fun v => exM.latent v = exM.latent u) :=
      List.subperm_of_subset hnd fun v hv => by simpa using hsame v hv u hu
    have := this.length_le
    rw [exM_class] at this
    omega
  rw [h6 S hS]
  constructor
  · rintro ⟨-, h⟩ hm
    have h0 : (0 : Fin 6) ∉ S := fun h0 => absurd (hsame 0 h0 2 hm) (by decide)
    have h4 : (4 : Fin 6) ∉ S := fun h4 => absurd (hsame 4 h4 2 hm) (by decide)
    exact h 2 hm 0 (by simp) 4 (by simp) h0 h4 (by decide) (by simp [exM])
  · intro hm
    refine ⟨hlen, fun u hu k _ s _ hkS hsS _ => ?_⟩
    have hu1 : exM.latent u ≠ 1 := fun e => hm (hall u hu 2 (by rw [e]; rfl))
    have hk1 : exM.latent k ≠ exM.latent u := fun e => hkS (hall u hu k e.symm)
    have hs1 : exM.latent s ≠ exM.latent u := fun e => hsS (hall u hu s e.symm)
    generalize exM.latent u = a at *
    generalize exM.latent k = b at *
    generalize exM.latent s = c at *
    clear hE h5 h6 h5' hsame hall
    fin_cases a <;> fin_cases b <;> fin_cases c <;> simp_all [exM] <;> norm_num

/-- Two latent variables, each measured twice. -/
noncomputable def exM2 : Measured (Fin 4) (Fin 2) where
  latent v := ![0, 0, 1, 1] v
  load v := ![1, -1, 1, 2] v
  lcov p q := !![2, 1; 1, 1] p q
  noise u v := if u = v then 1 else 0

theorem exM2_pure : exM2.Pure (List.finRange 4) where
  load v _ := by fin_cases v <;> simp [exM2]
  lsymm u _ v _ := by fin_cases u <;> fin_cases v <;> simp [exM2]
  corr u _ v _ h := by
    fin_cases u <;> fin_cases v <;> simp [exM2] at h ⊢
  two v _ := by
    fin_cases v
    · exact ⟨1, by simp, by decide, rfl⟩
    · exact ⟨0, by simp, by decide, rfl⟩
    · exact ⟨3, by simp, by decide, rfl⟩
    · exact ⟨2, by simp, by decide, rfl⟩
  noise u _ v _ h := if_neg h

theorem exM2_posDef : (Matrix.of exM2.cov).PosDef := by
  refine Measured.posDef ?_ (fun u v h => if_neg h) (fun v => by simp [exM2])
  have e : Matrix.of exM2.lcov = !![1, 1; 1, 0] * (1 : Matrix (Fin 2) (Fin 2) ℝ) * (!![1, 1; 1, 0] : Matrix (Fin 2) (Fin 2) ℝ).conjTranspose := by
    ext p q
    fin_cases p <;> fin_cases q <;> simp [exM2, Matrix.mul_apply, Fin.sum_univ_two]; norm_num
  rw [e]
  exact Matrix.PosSemidef.one.mul_mul_conjTranspose_same _

/-- c165_two_false on a sample: both pure clusters are recorded as impure. -/
example : ∃ (n : Nat) (x : Fin 4 → Fin n → ℝ) (f : Found (Fin 4)) (ni : List (List (Fin 4))), (∀ u v, Tetrad.cov (x u) (x v) = exM2.cov u v) ∧
    findCausalCluster (exEnv 3 n) (table (List.finRange 4) x) [] [] = .ok f ∧ f.impures = ni ∧ ∀ S ∈ f.learned, S.length = 2 → S ∈ ni := by
  obtain ⟨n, x, hx, hE⟩ := exEnv_exact exM2_posDef
  have hk := table_keys (List.finRange 4) x
  obtain ⟨f, ni, h1, h2, h3⟩ := c165_two_false (env := exEnv 3 n) (fun l => List.reverse_perm l) (fun _ => List.Perm.refl _)
    (d := table (List.finRange 4) x) (by rw [hk]; exact List.nodup_finRange 4) (M := exM2) (by rw [hk]; exact exM2_pure) hE (by rw [hk]; simp)
    (q := 0) (r := 1) (by
      intro v _
      fin_cases v <;> simp [exM2]) [] []
  exact ⟨n, x, f, ni, hx, h1, h2, h3⟩

/-- c165_sample. -/
example : ∃ N : Nat, ∀ n ≥ N, ∃ (x : Fin 6 → Fin n → ℝ) (f : Found (Fin 6)), (∀ u v, Tetrad.cov (x u) (x v) = exM.cov u v) ∧
    findCausalCluster (exEnv 5 n) (table (List.finRange 6) x) [] [] = .ok f ∧
    ∀ u v : Fin 6, (∃ S ∈ f.learned, u ∈ S ∧ v ∈ S) ↔ exM.latent u = exM.latent v := by
  obtain ⟨N, hN⟩ := c165_sample (List.nodup_finRange 6) exM_pure.good (by simp) exM_posDef (alpha := 1 / 100) (by norm_num) (by norm_num)
  refine ⟨N, fun n hn => ?_⟩
  obtain ⟨⟨x, hx⟩, h⟩ := hN n hn
  obtain ⟨f, np, ni, h1, -, -, h2, -⟩ := h x hx (exEnv 5 n) rfl (fun l => List.reverse_perm l) (fun _ => List.Perm.refl _) [] []
  exact ⟨x, f, hx, h1, fun u v => h2 u (by simp) v (by simp)⟩

end examples

end Cdmir.Hier
