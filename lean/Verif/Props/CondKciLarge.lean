import Verif.Props.CondKciMore
import Verif.Props.KernelZero

/-! C130: the non-approximate mode of the unconditional kernel test with more than 1000 rows. -/

namespace Cdmir.KTest
open BigOperators
open scoped MatrixOrder Matrix

variable {n d e : Nat}

/-- A vector that the centred kernel of different rows maps to zero is constant. -/
theorem center_null {X : Data n d} (hX : Function.Injective X) {w : ℝ} (hw : 0 < w) {v : Fin n → ℝ}
    (hv : center (gaussianWidth w X) *ᵥ v = 0) (i j : Fin n) : v i = v j := by
  have hp : (gaussianWidth w X).PosDef := by
    have h := gauss_posDef X hX (w := w / 2) (half_pos hw)
    have e : gaussianWidth w X = Matrix.of fun i j => Real.exp (-(w / 2 * sqDist X i j)) := by
      ext i j
      simp only [gaussianWidth, Matrix.of_apply]
      congr 1
      ring
    rwa [e]
  have hT : (hMat n)ᵀ = hMat n := by ext i j; exact hMat_symm j i
  have h0 : hMat n *ᵥ v = 0 := by
    by_contra hne
    refine (hp.dotProduct_mulVec_pos hne).ne' ?_
    have e : star (hMat n *ᵥ v) ⬝ᵥ gaussianWidth w X *ᵥ hMat n *ᵥ v = v ⬝ᵥ center (gaussianWidth w X) *ᵥ v := by
      rw [center, star_trivial, ← Matrix.mulVec_mulVec, ← Matrix.mulVec_mulVec, Matrix.dotProduct_mulVec v, ← Matrix.mulVec_transpose, hT]
    rw [e, hv, dotProduct_zero]
  have h1 : ∀ i, v i = ∑ k, 1 / (n : ℝ) * v k := by
    intro i
    have := congrFun h0 i
    simp only [hMat, Matrix.sub_mulVec, Matrix.one_mulVec, Pi.sub_apply, Pi.zero_apply] at this
    rw [sub_eq_zero] at this
    rw [this]
    simp [Matrix.mulVec, dotProduct]
  rw [h1 i, h1 j]

/-- The largest half of the eigenvalues do not add up to the trace. -/
theorem take_sum_lt {ev : (k : Nat) → Matrix (Fin k) (Fin k) ℝ → List ℝ} (hev : EigvalsCorrect ev) {X : Data n d} (hX : Function.Injective X)
    {w : ℝ} (hw : 0 < w) {num : Nat} (hnum : num + 2 ≤ n) :
    (((ev n (center (gaussianWidth w X))).insertionSort (· ≥ ·)).take num).sum < (center (gaussianWidth w X)).trace := by
  have hK : (center (gaussianWidth w X)).PosSemidef := center_psd (gaussianWidth_psd hw.le X)
  obtain ⟨a1, a2, a3, -⟩ := eigvals_ok hev hK
  obtain ⟨v, V, ⟨hV, hVK⟩, hp⟩ := hev n _ (psd_transpose hK)
  have pa := List.perm_insertionSort (· ≥ ·) (ev n (center (gaussianWidth w X)))
  have hla := pa.length_eq
  have hs := pa.sum_eq
  have hm := fun x => pa.mem_iff (a := x)
  have hq := pa.trans hp
  generalize (ev n (center (gaussianWidth w X))).insertionSort (· ≥ ·) = la at *
  rw [← a3, ← hs, ← List.sum_take_add_sum_drop la num]
  have hnn : ∀ x ∈ la.drop num, 0 ≤ x := fun x hx => a2 x ((hm x).1 (List.mem_of_mem_drop hx))
  refine lt_add_of_pos_right _ (lt_of_le_of_ne (List.sum_nonneg hnn) fun h => ?_)
  have hz : ∀ x ∈ la.drop num, x = 0 := by
    intro x hx
    refine le_antisymm ?_ (hnn x hx)
    rw [h]
    exact List.single_le_sum hnn x hx
  have hc : 2 ≤ la.countP fun x => decide (x = 0) := by
    have h1 : (la.drop num).countP (fun x => decide (x = 0)) = (la.drop num).length := List.countP_eq_length.2 fun x hx => by simpa using hz x hx
    have h2 : (la.drop num).countP (fun x => decide (x = 0)) ≤ la.countP fun x => decide (x = 0) := (List.drop_sublist num la).countP_le
    rw [List.length_drop] at h1
    omega
  rw [hq.countP_eq, List.ofFn_eq_map, List.countP_map, List.countP_eq_length_filter] at hc
  have hnd : ((List.finRange n).filter ((fun x => decide (x = 0)) ∘ v)).Nodup := (List.nodup_finRange n).filter _
  obtain ⟨i, j, hij, hi, hj⟩ : ∃ i j : Fin n, i ≠ j ∧ v i = 0 ∧ v j = 0 := by
    match hl : (List.finRange n).filter ((fun x => decide (x = 0)) ∘ v), hc, hnd with
    | i :: j :: l, _, hnd =>
      have hi : i ∈ (List.finRange n).filter ((fun x => decide (x = 0)) ∘ v) := by rw [hl]; simp
      have hj : j ∈ (List.finRange n).filter ((fun x => decide (x = 0)) ∘ v) := by rw [hl]; simp
      refine ⟨i, j, ?_, by simpa using (List.mem_filter.1 hi).2, by simpa using (List.mem_filter.1 hj).2⟩
      rintro rfl
      simp at hnd
  have hnull : ∀ i, v i = 0 → center (gaussianWidth w X) *ᵥ (fun r => V r i) = 0 := by
    intro i hi
    have hcol : (fun r => V r i) = V *ᵥ Pi.single i 1 := by funext r; simp
    rw [hcol, ← hVK, Matrix.mulVec_mulVec, Matrix.mul_assoc, hV, Matrix.mul_one, ← Matrix.mulVec_mulVec]
    have : Matrix.diagonal v *ᵥ Pi.single i 1 = 0 := by
      funext r
      rw [Matrix.mulVec_diagonal]
      by_cases hr : r = i
      · rw [hr, hi]; simp
      · simp [hr]
    rw [this, Matrix.mulVec_zero]
  have ci := center_null hX hw (hnull i hi)
  have cj := center_null hX hw (hnull j hj)
  have e : ∀ a b, ∑ r, V r a * V r b = if a = b then 1 else 0 := by
    intro a b
    have := congrFun (congrFun hV a) b
    rwa [Matrix.mul_apply, Matrix.one_apply] at this
  have eii := e i i
  have ejj := e j j
  have eij := e i j
  rw [if_pos rfl] at eii ejj
  rw [if_neg hij] at eij
  simp only [ci _ i, cj _ i, Finset.sum_const, Finset.card_univ, Fintype.card_fin, nsmul_eq_mul] at eii ejj eij
  have hn : (n : ℝ) ≠ 0 := by
    have : n ≠ 0 := by omega
    exact_mod_cast this
  rcases mul_eq_zero.1 ((mul_eq_zero.1 eij).resolve_left hn) with h0 | h0
  · rw [h0] at eii; norm_num at eii
  · rw [h0] at ejj; norm_num at ejj

/-- C130, "the null distribution of the non-approximate mode has the mean of the statistic, for every number of rows" is false of more than 1000
rows. If numpy has no `np.int` (since 1.24) every call raises. If it has, only half of the eigenvalues of each kernel are used: whenever the rows
of both samples are different, the weights of the null distribution add up to less than the product of the traces. -/
theorem c130_large_false {ev : (k : Nat) → Matrix (Fin k) (Fin k) ℝ → List ℝ} (hn : 1000 < n) (draw : Nat → Nat → ℝ) (N : Nat) (thr : ℝ)
    {wx wy : ℝ} (hx : 0 < wx) (hy : 0 < wy) (X : Data n d) (Y : Data n e) :
    ukciSpectral false ev draw N thr wx wy X Y = .error .exception ∧
    (EigvalsCorrect ev → ∃ r, ukciSpectral true ev draw N thr wx wy X Y = .ok r) ∧
    (EigvalsCorrect ev → Function.Injective X → Function.Injective Y → ∀ p s, ukciSpectral true ev draw N thr wx wy X Y = .ok (p, s) →
      ∃ (K L : Matrix (Fin n) (Fin n) ℝ) (ws : List ℝ), K = center (gaussianWidth wx (standardise X)) ∧
        L = center (gaussianWidth wy (standardise Y)) ∧ s = ∑ i, ∑ j, K i j * L i j ∧
        p = ((List.range N).countP fun k => decide (s < (∑ i : Fin ws.length, ws.get i * draw i k) / n)) / (N : ℝ) ∧
        ws.sum / n < K.trace * L.trace / n) := by
  constructor
  · simp only [ukciSpectral, spectralWeights]
    rw [if_pos hn]
    rfl
  refine ⟨fun hev => ?_, fun hev hX hY p s h => ?_⟩
  · simp only [ukciSpectral, spectralWeights]
    rw [if_pos hn]
    obtain ⟨a1, -⟩ := eigvals_ok hev (kernel_psd hx.le (standardise X))
    obtain ⟨b1, -⟩ := eigvals_ok hev (kernel_psd hy.le (standardise Y))
    have ha : (((ev n (centerKernelMatrix (gaussianWidth wx (standardise X)))).insertionSort (· ≥ ·)).take (n / 2)).length = n / 2 := by
      rw [List.length_take, List.length_insertionSort, a1]; omega
    have hb : (((ev n (centerKernelMatrix (gaussianWidth wy (standardise Y)))).insertionSort (· ≥ ·)).take (n / 2)).length = n / 2 := by
      rw [List.length_take, List.length_insertionSort, b1]; omega
    obtain ⟨a, la, ha'⟩ := List.exists_cons_of_length_pos (by rw [ha]; omega : 0 < List.length _)
    obtain ⟨b, lb, hb'⟩ := List.exists_cons_of_length_pos (by rw [hb]; omega : 0 < List.length _)
    simp only [if_true, bind, Except.bind, ha', hb', List.flatMap_cons, List.map_cons, List.cons_append, npMax, pure, Except.pure]
    exact ⟨_, rfl⟩
  · have hX' : Function.Injective (standardise X) := fun i j hij => hX ((standardise_inj X i j).1 hij)
    have hY' : Function.Injective (standardise Y) := fun i j hij => hY ((standardise_inj Y i j).1 hij)
    obtain ⟨ws, hw, h⟩ := bind_ok h
    simp only [pure, Except.pure, Except.ok.injEq, Prod.mk.injEq] at h
    obtain ⟨rfl, rfl⟩ := h
    rw [gauss_eq, gauss_eq] at *
    refine ⟨_, _, ws, rfl, rfl, rfl, ?_, ?_⟩
    · simp only [empiricalP, nullSamples, List.countP_eq_length_filter, List.filter_map, List.length_map]
      congr 3
      refine List.filter_congr fun k _ => ?_
      simp only [Function.comp]
      congr 3
      rw [← List.sum_ofFn]
      congr 1
      refine List.ext_getElem (by simp) fun i h1 h2 => ?_
      simp
    · simp only [spectralWeights] at hw
      simp only [if_pos hn, if_true] at hw
      obtain ⟨num, hnum, hw⟩ := bind_ok hw
      cases hnum
      obtain ⟨m, _, hw⟩ := bind_ok hw
      simp only [pure, Except.pure, Except.ok.injEq] at hw
      have t1 := take_sum_lt hev hX' hx (num := n / 2) (by omega)
      have t2 := take_sum_lt hev hY' hy (num := n / 2) (by omega)
      obtain ⟨-, a2, -, -⟩ := eigvals_ok hev (center_psd (gaussianWidth_psd hx.le (standardise X)))
      obtain ⟨-, b2, -, -⟩ := eigvals_ok hev (center_psd (gaussianWidth_psd hy.le (standardise Y)))
      have a2' : ∀ x ∈ ((ev n (center (gaussianWidth wx (standardise X)))).insertionSort (· ≥ ·)).take (n / 2), 0 ≤ x := fun x hx =>
        a2 x ((List.perm_insertionSort (· ≥ ·) _).mem_iff.1 (List.mem_of_mem_take hx))
      have b2' : ∀ x ∈ ((ev n (center (gaussianWidth wy (standardise Y)))).insertionSort (· ≥ ·)).take (n / 2), 0 ≤ x := fun x hx =>
        b2 x ((List.perm_insertionSort (· ≥ ·) _).mem_iff.1 (List.mem_of_mem_take hx))
      generalize ((ev n (center (gaussianWidth wx (standardise X)))).insertionSort (· ≥ ·)).take (n / 2) = la at *
      generalize ((ev n (center (gaussianWidth wy (standardise Y)))).insertionSort (· ≥ ·)).take (n / 2) = lb at *
      have hnn : ∀ x ∈ la.flatMap fun a => lb.map fun b => a * b, 0 ≤ x := by
        intro x hx
        obtain ⟨a, ha, hx⟩ := List.mem_flatMap.1 hx
        obtain ⟨b, hb, rfl⟩ := List.mem_map.1 hx
        exact mul_nonneg (a2' a ha) (b2' b hb)
      have hle : ws.sum ≤ la.sum * lb.sum := by
        have e := outer_sum id (fun _ _ => rfl) la lb
        simp only [List.map_id] at e
        rw [← e, ← hw]
        exact List.Sublist.sum_le_sum List.filter_sublist fun x hx => hnn x hx
      have hlt : la.sum * lb.sum < _ * _ := mul_lt_mul'' t1 t2 (List.sum_nonneg a2') (List.sum_nonneg b2')
      have hn' : (0 : ℝ) < n := by
        have : 0 < n := by omega
        exact_mod_cast this
      exact div_lt_div_of_pos_right (hle.trans_lt hlt) hn'

/-- 1001 rows, all different. -/
example : Function.Injective (fun i _ => (i : ℝ) : Data 1001 1) := fun i j h => by
  have : (i : ℝ) = j := congrFun h 0
  exact Fin.ext (by exact_mod_cast this)

/-- With them the test returns a p-value from a null distribution whose mean is too small. -/
example (draw : Nat → Nat → ℝ) : ∃ p s, ukciSpectral true stdVals draw 1000 0 1 1 (fun i _ => (i : ℝ) : Data 1001 1) (fun i _ => (i : ℝ) ^ 2 : Data 1001 1) = .ok (p, s) := by
  obtain ⟨r, hr⟩ := (c130_large_false (n := 1001) (by norm_num) draw 1000 0 one_pos one_pos (fun i _ => (i : ℝ) : Data 1001 1)
    (fun i _ => (i : ℝ) ^ 2 : Data 1001 1)).2.1 stdVals_correct
  exact ⟨r.1, r.2, hr⟩

end Cdmir.KTest
