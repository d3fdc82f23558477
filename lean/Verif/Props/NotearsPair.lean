import Verif.Props.NotearsEqual

/-! C169: data with noise of equal variances exist for every model, and two columns, for which the direction that notears_linear returns is decided by the variances. -/

namespace Cdmir.Notears
open BigOperators Spec

variable {n d : Nat}

theorem centre_of_sum {X : Matrix (Fin n) (Fin d) ℝ} (h : ∀ j, ∑ s, X s j = 0) : centre .l2 X = X := by
  funext i j
  change X i j - (∑ l, X l j) / n = X i j
  rw [h, zero_div, sub_zero]

/-- C169: for every acyclic matrix and every variance there are data as in c169_equal and c169_recovers. -/
theorem c169_sample (hd : 0 < d) {B : Matrix (Fin d) (Fin d) ℝ} (ac : Acyclic fun i j => B i j ≠ 0) {v : ℝ} (hv : 0 < v) :
    ∃ X : Matrix (Fin (d + d)) (Fin d) ℝ, EqualNoise (centre .l2 X) B v := by
  have hu : IsUnit (1 - B).det := by rw [det_one ac fun _ _ q => q]; exact isUnit_one
  have hd' : (d : ℝ) ≠ 0 := Nat.cast_ne_zero.2 hd.ne'
  let a : ℝ := √(d * v)
  have ha : a * a = d * v := Real.mul_self_sqrt (by positivity)
  let X : Matrix (Fin (d + d)) (Fin d) ℝ := fun s j => Fin.addCases (fun k => a * (1 - B)⁻¹ k j) (fun k => -(a * (1 - B)⁻¹ k j)) s
  have hl : ∀ k j, X (Fin.castAdd d k) j = a * (1 - B)⁻¹ k j := fun k j => Fin.addCases_left k
  have hr : ∀ k j, X (Fin.natAdd d k) j = -(a * (1 - B)⁻¹ k j) := fun k j => Fin.addCases_right k
  have hinv : ∀ k i, (1 - B)⁻¹ k i - ∑ l, (1 - B)⁻¹ k l * B l i = if k = i then 1 else 0 := fun k i => by
    rw [← resid_apply, Matrix.nonsing_inv_mul _ hu, Matrix.one_apply]
  have el : ∀ k i, X (Fin.castAdd d k) i - ∑ l, X (Fin.castAdd d k) l * B l i = a * if k = i then 1 else 0 := fun k i => by
    rw [← hinv]
    simp only [hl, mul_assoc]
    rw [← Finset.mul_sum, mul_sub]
  have er : ∀ k i, X (Fin.natAdd d k) i - ∑ l, X (Fin.natAdd d k) l * B l i = -(a * if k = i then 1 else 0) := fun k i => by
    rw [← hinv]
    simp only [hr, neg_mul, mul_assoc]
    rw [Finset.sum_neg_distrib, ← Finset.mul_sum, mul_sub]
    ring
  refine ⟨X, ?_⟩
  rw [centre_of_sum fun j => ?_]
  · intro i j
    rw [Fin.sum_univ_add]
    simp only [el, er]
    have h1 : ∀ k : Fin d, (a * if k = i then (1 : ℝ) else 0) * (a * if k = j then 1 else 0) = if k = i then (if i = j then d * v else 0) else 0 := by
      intro k
      rw [mul_mul_mul_comm, ha]
      by_cases hk : k = i
      · subst hk
        by_cases hj : k = j <;> simp [hj]
      · simp [hk]
    simp only [neg_mul_neg, h1, Finset.sum_ite_eq', Finset.mem_univ, if_true]
    rw [Nat.cast_add]
    split
    · field_simp
    · simp
  · rw [Fin.sum_univ_add]
    simp only [hl, hr]
    rw [Finset.sum_neg_distrib, add_neg_cancel]

/-- The sum of the products of two columns. -/
def ip (X : Matrix (Fin n) (Fin d) ℝ) (i j : Fin d) : ℝ := ∑ s, X s i * X s j

/-- The matrix with the single edge `i → j`. -/
def edge (i j : Fin d) (c : ℝ) : Matrix (Fin d) (Fin d) ℝ := fun k l => if k = i ∧ l = j then c else 0

theorem edge_acyclic {i j : Fin d} (hij : i ≠ j) (c : ℝ) : Acyclic fun k l => edge i j c k l ≠ 0 := by
  have h : ∀ {k l}, edge i j c k l ≠ 0 → k = i ∧ l = j := fun {k l} hk => by
    by_contra hn
    exact hk (if_neg hn)
  intro k hk
  have h1 : ∀ {a b}, Relation.TransGen (fun k l => edge i j c k l ≠ 0) a b → a = i ∧ b = j := fun {a b} t => by
    obtain ⟨x, hx, -⟩ := Relation.TransGen.head'_iff.1 t
    obtain ⟨y, -, hy⟩ := Relation.TransGen.tail'_iff.1 t
    exact ⟨(h hx).1, (h hy).2⟩
  exact hij ((h1 hk).1.symm.trans (h1 hk).2)

theorem two_cases : ∀ i j : Fin 2, i ≠ j → ∀ k, k = i ∨ k = j := by decide

theorem two_cases' : ∀ i j : Fin 2, i ≠ j → i = 0 ∧ j = 1 ∨ i = 1 ∧ j = 0 := by decide

/-- The loss for two columns. -/
theorem sq_two (X : Matrix (Fin n) (Fin 2) ℝ) {i j : Fin 2} (hij : i ≠ j) {W : Matrix (Fin 2) (Fin 2) ℝ} (hi : W i i = 0) (hj : W j j = 0) :
    sq X W = 1 / 2 / n * (ip X i i + ip X j j - 2 * (W i j + W j i) * ip X i j + W i j ^ 2 * ip X i i + W j i ^ 2 * ip X j j) := by
  unfold sq
  congr 1
  have : ∀ f : Fin 2 → ℝ, ∑ k, f k = f i + f j := by
    intro f
    rw [Fin.sum_univ_two]
    rcases two_cases' i j hij with ⟨rfl, rfl⟩ | ⟨rfl, rfl⟩
    · rfl
    · exact add_comm _ _
  simp only [this, hi, hj]
  unfold ip
  simp only [Finset.mul_sum, ← Finset.sum_add_distrib, ← Finset.sum_sub_distrib]
  refine Finset.sum_congr rfl fun s _ => ?_
  ring

/-- The best acyclic matrix for two columns: the edge from the column with the smaller variance. -/
theorem pair_best (hn : 0 < n) (X : Matrix (Fin n) (Fin 2) ℝ) {i j : Fin 2} (hij : i ≠ j) (ha : 0 < ip X i i) (hab : ip X i i < ip X j j) (hc : ip X i j ≠ 0)
    {W : Matrix (Fin 2) (Fin 2) ℝ} (hW0 : (hW W).1 = 0) (hne : W ≠ edge i j (ip X i j / ip X i i)) :
    sq X (edge i j (ip X i j / ip X i i)) < sq X W := by
  have hn' : (0 : ℝ) < 1 / 2 / n := by positivity
  have hji : edge i j (ip X i j / ip X i i) j i = 0 := if_neg fun h => hij h.2
  have hii : edge i j (ip X i j / ip X i i) i i = 0 := if_neg fun h => hij h.2
  have hjj : edge i j (ip X i j / ip X i i) j j = 0 := if_neg fun h => hij h.1.symm
  have hij' : edge i j (ip X i j / ip X i i) i j = ip X i j / ip X i i := if_pos ⟨rfl, rfl⟩
  have wi := diag_zero (by decide) hW0 i
  have wj := diag_zero (by decide) hW0 j
  rw [sq_two X hij hii hjj, sq_two X hij wi wj, hji, hij']
  refine mul_lt_mul_of_pos_left ?_ hn'
  have ac := (c57_linear (by decide) W).2.1 hW0
  have hb : 0 < ip X j j := ha.trans hab
  have e : ip X i j / ip X i i * ip X i i = ip X i j := div_mul_cancel₀ _ ha.ne'
  set a := ip X i i
  set b := ip X j j
  set c := ip X i j
  set t := c / a
  have ht : t ≠ 0 := div_ne_zero hc ha.ne'
  have e2 : t ^ 2 * a = t * c := by rw [pow_two, mul_assoc, e]
  have hpos : 0 < t * c := by rw [← e2]; positivity
  by_cases h1 : W j i = 0
  · have hne' : W i j ≠ t := fun h => hne (by
      funext k l
      unfold edge
      have two := two_cases i j hij
      rcases two k with rfl | rfl <;> rcases two l with rfl | rfl
      · rw [if_neg fun q => hij q.2, wi]
      · rw [if_pos ⟨rfl, rfl⟩, h]
      · rw [if_neg fun q => hij q.2, h1]
      · rw [if_neg fun q => hij q.1.symm, wj])
    rw [h1]
    have h3 : 0 < (W i j - t) ^ 2 * a := mul_pos (sq_pos_of_ne_zero (sub_ne_zero.2 hne')) ha
    have h4 : W i j * (t * a) = W i j * c := by rw [e]
    nlinarith
  · have h2 : W i j = 0 := by
      by_contra h2
      exact ac i (.tail (.single h2) h1)
    rw [h2]
    -- `2 w c - w² b ≤ c² / b < c² / a`
    have h3 : 2 * W j i * c - W j i ^ 2 * b ≤ c ^ 2 / b := by
      rw [le_div_iff₀ hb]
      nlinarith [sq_nonneg (W j i * b - c)]
    have h4 : c ^ 2 / b < c ^ 2 / a := by
      apply div_lt_div_of_pos_left (by positivity) ha hab
    have h5 : c ^ 2 / a = t * c := by simp only [t]; ring
    nlinarith

/-- C169. Two correlated columns: with an optimiser that finds a global minimum, notears_linear returns an edge from the column with the smaller variance to
the other, whatever the model. -/
theorem c169_pair (hn : 0 < n) {X : Matrix (Fin n) (Fin 2) ℝ} (hX : Indep (centre .l2 X)) {i j : Fin 2} (hij : i ≠ j)
    (hab : ip (centre .l2 X) i i < ip (centre .l2 X) j j) {τ : ℝ} (hτ : 0 < τ) (hc : τ < |ip (centre .l2 X) i j / ip (centre .l2 X) i i|) :
    ∃ δ, 0 < δ ∧ ∃ N, ∀ lambda1, 0 ≤ lambda1 → lambda1 ≤ δ → ∀ p : Params ℝ, p.hTol ≤ δ → 1 / δ ≤ p.rhoMax → 1 < p.rhoMax → N ≤ p.maxIter → p.wThreshold = τ →
      ∃ fuel, ∀ fuel' ≥ fuel, ∀ minim, Optimal (centre .l2 X) lambda1 minim → ∃ W, notearsLinear fuel' minim p = .ok W ∧ W i j ≠ 0 ∧ W j i = 0 := by
  set Y := centre .l2 X
  have h0 : 0 ≤ ip Y i i := Finset.sum_nonneg fun s _ => mul_self_nonneg _
  have h1 : ip Y i i ≠ 0 := fun h => by
    rw [h, div_zero, abs_zero] at hc
    exact absurd hc hτ.le.not_gt
  have h2 : ip Y i j ≠ 0 := fun h => by
    rw [h, zero_div, abs_zero] at hc
    exact absurd hc hτ.le.not_gt
  have ha := lt_of_le_of_ne h0 h1.symm
  obtain ⟨δ, hδ, N, h⟩ := c169_loop (by decide) hn hX ((c57_linear (by decide) _).2.2 (edge_acyclic hij _)) (fun W hW0 hne => pair_best hn Y hij ha hab h2 hW0 hne)
    hτ (fun k l hkl => by
      unfold edge at hkl ⊢
      by_cases hk : k = i ∧ l = j
      · rwa [if_pos hk]
      · exact absurd (if_neg hk) hkl) one_pos
  refine ⟨δ, hδ, N, fun l1 a b p c d e f g => ?_⟩
  obtain ⟨fuel, hf⟩ := h l1 a b p c d e f g
  refine ⟨fuel, fun fuel' hf' minim hm => ?_⟩
  obtain ⟨W, hW, hw⟩ := hf fuel' hf' minim hm
  refine ⟨W, hW, (hw i j).1.2 ?_, ?_⟩
  · unfold edge
    rw [if_pos ⟨rfl, rfl⟩]
    exact div_ne_zero h2 h1
  · by_contra hne
    exact (hw j i).1.1 hne (if_neg fun q => hij q.2)

/-- The data with column `j` in another unit. -/
def rescale (j : Fin d) (t : ℝ) (X : Matrix (Fin n) (Fin d) ℝ) : Matrix (Fin n) (Fin d) ℝ := fun s k => if k = j then t * X s k else X s k

theorem centre_rescale (j : Fin d) (t : ℝ) (X : Matrix (Fin n) (Fin d) ℝ) : centre .l2 (rescale j t X) = rescale j t (centre .l2 X) := by
  funext s k
  change rescale j t X s k - (∑ l, rescale j t X l k) / n = if k = j then t * (X s k - (∑ l, X l k) / n) else X s k - (∑ l, X l k) / n
  unfold rescale
  split
  · rw [← Finset.mul_sum]
    ring
  · rfl

theorem indep_rescale {j : Fin d} {t : ℝ} (ht : t ≠ 0) {X : Matrix (Fin n) (Fin d) ℝ} (hX : Indep X) : Indep (rescale j t X) := by
  intro u hu
  have h := hX (fun k => if k = j then t * u k else u k) fun s => by
    rw [← hu s]
    refine Finset.sum_congr rfl fun k _ => ?_
    unfold rescale
    split <;> ring
  funext k
  have hk := congrFun h k
  by_cases hkj : k = j
  · simp only [if_pos hkj] at hk
    exact (mul_eq_zero.1 hk).resolve_left ht
  · simpa only [if_neg hkj] using hk

/-- C169. The direction is a matter of units: of two correlated columns, either becomes the effect if it is given in a small enough unit. -/
theorem c169_units (hn : 0 < n) {X : Matrix (Fin n) (Fin 2) ℝ} (hX : Indep (centre .l2 X)) (hc : ip (centre .l2 X) 0 1 ≠ 0) {i j : Fin 2} (hij : i ≠ j)
    {τ : ℝ} (hτ : 0 < τ) :
    ∃ t₀, ∀ t > t₀, ∃ δ, 0 < δ ∧ ∃ N, ∀ lambda1, 0 ≤ lambda1 → lambda1 ≤ δ → ∀ p : Params ℝ, p.hTol ≤ δ → 1 / δ ≤ p.rhoMax → 1 < p.rhoMax → N ≤ p.maxIter →
      p.wThreshold = τ → ∃ fuel, ∀ fuel' ≥ fuel, ∀ minim, Optimal (centre .l2 (rescale j t X)) lambda1 minim →
        ∃ W, notearsLinear fuel' minim p = .ok W ∧ W i j ≠ 0 ∧ W j i = 0 := by
  set Y := centre .l2 X with hY
  have pos : ∀ k, 0 < ip Y k k := by
    intro k
    refine lt_of_le_of_ne (Finset.sum_nonneg fun s _ => mul_self_nonneg _) fun h => ?_
    have h0 : ∀ s, Y s k = 0 := fun s =>
      mul_self_eq_zero.1 ((Finset.sum_eq_zero_iff_of_nonneg fun s _ => mul_self_nonneg (Y s k)).1 h.symm s (Finset.mem_univ s))
    have h1 := congrFun (hX (fun l => if l = k then 1 else 0) fun s => by simp [h0]) k
    simp at h1
  have hc' : ip Y i j ≠ 0 := by
    rcases two_cases' i j hij with ⟨rfl, rfl⟩ | ⟨rfl, rfl⟩
    · exact hc
    · rwa [ip, Finset.sum_congr rfl fun s _ => mul_comm _ _]
  have ha := pos i
  have hb := pos j
  have hcp : 0 < |ip Y i j| := abs_pos.2 hc'
  refine ⟨1 + ip Y i i / ip Y j j + τ * ip Y i i / |ip Y i j|, fun t ht => ?_⟩
  have q1 : 0 < ip Y i i / ip Y j j := by positivity
  have q2 : 0 < τ * ip Y i i / |ip Y i j| := by positivity
  have t1 : 1 < t := by linarith
  have e1 : ip (rescale j t Y) i i = ip Y i i := by
    unfold ip rescale
    simp only [if_neg hij]
  have e2 : ip (rescale j t Y) j j = t ^ 2 * ip Y j j := by
    unfold ip rescale
    simp only [if_true, Finset.mul_sum]
    exact Finset.sum_congr rfl fun s _ => by ring
  have e3 : ip (rescale j t Y) i j = t * ip Y i j := by
    unfold ip rescale
    simp only [if_true, if_neg hij, Finset.mul_sum]
    exact Finset.sum_congr rfl fun s _ => by ring
  apply c169_pair hn _ hij
  · rw [centre_rescale, ← hY, e1, e2]
    have : ip Y i i / ip Y j j < t ^ 2 := by nlinarith
    rwa [div_lt_iff₀ hb] at this
  · exact hτ
  · rw [centre_rescale, ← hY, e1, e3, abs_div, abs_mul, abs_of_pos ha, lt_div_iff₀ ha, abs_of_pos (by linarith : (0 : ℝ) < t)]
    have : τ * ip Y i i / |ip Y i j| < t := by linarith
    rwa [div_lt_iff₀ hcp] at this
  · rw [centre_rescale]
    exact indep_rescale (by linarith) hX

/-- The data of c169_unequal_false: `x0 = ±2`, `x1 = x0 / 2 ± 1`. -/
def reversed : Matrix (Fin 4) (Fin 2) ℝ := !![2, 2; 2, 0; -2, -2; -2, 0]

theorem centre_reversed : centre .l2 reversed = reversed := centre_of_sum fun j => by
  fin_cases j <;> simp [reversed, Fin.sum_univ_four]

theorem indep_reversed : Indep reversed := by
  intro t ht
  have h1 := ht 1
  have h0 := ht 0
  simp only [reversed, Fin.sum_univ_two, Matrix.of_apply, Matrix.cons_val', Matrix.cons_val_zero, Matrix.cons_val_one, Matrix.cons_val_fin_one] at h0 h1
  have e0 : t 0 = 0 := by linarith
  have e1 : t 1 = 0 := by linarith
  funext k
  fin_cases k
  · exact e0
  · exact e1

theorem ip_reversed : ip reversed 0 0 = 16 ∧ ip reversed 1 1 = 8 ∧ ip reversed 1 0 = 8 := by
  refine ⟨?_, ?_, ?_⟩ <;> simp [ip, reversed, Fin.sum_univ_four] <;> norm_num

/-- C169, intended of c169_recovers without equal variances: false. The edge `0 → 1` with weight 1/2 is the model, the residuals are uncorrelated (their
variances are 4 and 1), and notears_linear returns the edge `1 → 0`. -/
theorem c169_unequal_false :
    (∀ i j, i ≠ j → ∑ s, (reversed s i - ∑ l, reversed s l * edge 0 1 (1 / 2) l i) * (reversed s j - ∑ l, reversed s l * edge 0 1 (1 / 2) l j) = 0) ∧
    (∃ δ, 0 < δ ∧ ∃ N, ∀ lambda1, 0 ≤ lambda1 → lambda1 ≤ δ → ∀ p : Params ℝ, p.hTol ≤ δ → 1 / δ ≤ p.rhoMax → 1 < p.rhoMax → N ≤ p.maxIter →
      p.wThreshold = 3 / 10 → ∃ fuel, ∀ fuel' ≥ fuel, ∀ minim, Optimal (centre .l2 reversed) lambda1 minim →
        ∃ W, notearsLinear fuel' minim p = .ok W ∧ W 1 0 ≠ 0 ∧ W 0 1 = 0) := by
  obtain ⟨h0, h1, h2⟩ := ip_reversed
  refine ⟨fun i j hij => ?_, c169_pair (by decide) (by rw [centre_reversed]; exact indep_reversed) (by decide) ?_ (by norm_num) ?_⟩
  · rcases two_cases' i j hij with ⟨rfl, rfl⟩ | ⟨rfl, rfl⟩ <;> simp [reversed, edge, Fin.sum_univ_four] <;> norm_num
  · rw [centre_reversed, h0, h1]
    norm_num
  · rw [centre_reversed, h1, h2]
    norm_num

/-- The data of c169_unequal_false meet the hypotheses of c169_units. -/
example : Indep (centre .l2 reversed) ∧ ip (centre .l2 reversed) 0 1 ≠ 0 := by
  rw [centre_reversed]
  refine ⟨indep_reversed, ?_⟩
  simp [ip, reversed, Fin.sum_univ_four]

/-- A chain `0 → 1 → 2` as in c169_sample and c169_recovers. -/
example : ∃ X : Matrix (Fin 6) (Fin 3) ℝ, EqualNoise (centre .l2 X) !![0, 1, 0; 0, 0, -1; 0, 0, 0] 1 :=
  c169_sample (d := 3) (by decide) (fun a h => by
    have lt : ∀ {a b : Fin 3}, Relation.TransGen (fun i j => (!![0, 1, 0; 0, 0, -1; 0, 0, 0] : Matrix (Fin 3) (Fin 3) ℝ) i j ≠ 0) a b → a < b := fun {a b} t => by
      have step : ∀ i j, (!![0, 1, 0; 0, 0, -1; 0, 0, 0] : Matrix (Fin 3) (Fin 3) ℝ) i j ≠ 0 → i < j := fun i j h => by
        fin_cases i <;> fin_cases j <;> simp at h ⊢
      induction t with
      | single e => exact step _ _ e
      | tail _ e ih => exact ih.trans (step _ _ e)
    exact absurd (lt h) (lt_irrefl a)) one_pos

/-- Both hypotheses of c169_recovers, the data and the optimiser, can be met at once. -/
example : ∃ (X : Matrix (Fin 4) (Fin 2) ℝ) (minim : ℝ → ℝ → Doubled ℝ 2 → Doubled ℝ 2), EqualNoise (centre .l2 X) (edge 0 1 2) 1 ∧
    Optimal (centre .l2 X) (1 / 10) minim := by
  have ac : Acyclic fun i j => edge (0 : Fin 2) 1 2 i j ≠ 0 := edge_acyclic (by decide) 2
  obtain ⟨X, hX⟩ := c169_sample (d := 2) (by decide) ac one_pos
  obtain ⟨minim, hm⟩ := c169_optimal (by decide) (hX.indep (by decide) one_pos ac) (lambda1 := 1 / 10) (by norm_num) (by decide)
  exact ⟨X, minim, hX, hm⟩

/-- Both directions of the variables. -/
def swap (w : Doubled ℝ d) : Doubled ℝ d := (w.1.transpose, w.2.transpose)

theorem adj_swap (w : Doubled ℝ d) : adj (swap w) = (adj w).transpose := rfl

theorem hW_transpose (hd : 0 < d) (W : Matrix (Fin d) (Fin d) ℝ) : (hW W.transpose).1 = (hW W).1 := by
  rw [hW_fst, hW_fst, hOf_trace hd.ne', hOf_trace hd.ne']
  have : stepMat (had W.transpose W.transpose) = (stepMat (had W W)).transpose := by
    funext i j
    simp only [stepMat, had, Matrix.transpose_apply, eq_comm]
  rw [this, ← Matrix.transpose_pow, Matrix.trace_transpose]

theorem total_transpose (A : Matrix (Fin d) (Fin d) ℝ) : total A.transpose = total A := by
  unfold total
  exact Finset.sum_comm

/-- The optimiser that returns the transposed solutions. -/
def flip (minim : ℝ → ℝ → Doubled ℝ d → Doubled ℝ d) : ℝ → ℝ → Doubled ℝ d → Doubled ℝ d := fun rho alpha w => swap (minim rho alpha (swap w))

theorem inner_flip (hd : 0 < d) (minim : ℝ → ℝ → Doubled ℝ d → Doubled ℝ d) (rhoMax alpha : ℝ) (h : Option ℝ) (w : Doubled ℝ d) (fuel : Nat) (rho : ℝ)
    (new : Option (Doubled ℝ d × ℝ)) : inner (flip minim) rhoMax alpha h (swap w) fuel rho (new.map fun q => (swap q.1, q.2)) =
      (inner minim rhoMax alpha h w fuel rho new).map fun r => (r.1, r.2.map fun q => (swap q.1, q.2)) := by
  induction fuel generalizing rho new with
  | zero =>
    unfold inner
    split <;> rfl
  | succ fuel ih =>
    unfold inner
    split
    · have e : flip minim rho alpha (swap w) = swap (minim rho alpha w) := rfl
      simp only [e, adj_swap, hW_transpose hd]
      split
      · exact ih (rho * 10) (some (minim rho alpha w, (hW (adj (minim rho alpha w))).1))
      · rfl
    · rfl

theorem outer_flip (hd : 0 < d) (minim : ℝ → ℝ → Doubled ℝ d → Doubled ℝ d) (p : Params ℝ) (fuel k : Nat) (s : State ℝ d) :
    outer fuel (flip minim) p k { s with w := swap s.w } = (outer fuel minim p k s).map fun s => { s with w := swap s.w } := by
  induction k generalizing s with
  | zero => rfl
  | succ k ih =>
    unfold outer
    have h := inner_flip hd minim p.rhoMax s.alpha s.h s.w fuel s.rho none
    simp only [Option.map_none] at h
    simp only [h]
    cases hi : inner minim p.rhoMax s.alpha s.h s.w fuel s.rho none with
    | error e => rfl
    | ok r =>
      obtain ⟨rho, new⟩ := r
      cases new with
      | none => rfl
      | some q =>
        obtain ⟨w, h⟩ := q
        change (if h ≤ p.hTol ∨ rho ≥ p.rhoMax then pure _ else outer fuel (flip minim) p k _) = Except.map _ (if h ≤ p.hTol ∨ rho ≥ p.rhoMax then pure _ else
          outer fuel minim p k _)
        split
        · rfl
        · exact ih ⟨w, rho, s.alpha + rho * h, some h⟩

/-- C169. Two columns of equal variance, as in `original`, which standardises the data: if an optimiser finds global minima, so does the one that returns the
transposed matrices, and with it notears_linear returns the transposed result. -/
theorem c169_standard {X : Matrix (Fin n) (Fin 2) ℝ} (he : ip (centre .l2 X) 0 0 = ip (centre .l2 X) 1 1) {lambda1 : ℝ}
    {minim : ℝ → ℝ → Doubled ℝ 2 → Doubled ℝ 2} (hm : Optimal (centre .l2 X) lambda1 minim) :
    ∃ minim', Optimal (centre .l2 X) lambda1 minim' ∧ ∀ fuel p, notearsLinear fuel minim' p = (notearsLinear fuel minim p).map Matrix.transpose := by
  have hsq : ∀ W : Matrix (Fin 2) (Fin 2) ℝ, (∀ i, W i i = 0) → sq (centre .l2 X) W.transpose = sq (centre .l2 X) W := by
    intro W hW
    have h0 := hW 0
    have h1 := hW 1
    rw [sq_two _ (by decide : (0 : Fin 2) ≠ 1) (W := W) h0 h1, sq_two _ (by decide : (0 : Fin 2) ≠ 1) (W := W.transpose) h0 h1]
    simp only [Matrix.transpose_apply, he]
    ring
  have box : ∀ w : Doubled ℝ 2, Box w → Box (swap w) := fun w hw => ⟨fun i j => hw.1 j i, fun i => hw.2 i⟩
  have dz : ∀ w : Doubled ℝ 2, Box w → ∀ i, adj w i i = 0 := fun w hw i => by
    change w.1 i i - w.2 i i = 0
    rw [(hw.2 i).1, (hw.2 i).2, sub_zero]
  have val : ∀ rho alpha (w : Doubled ℝ 2), Box w → ∀ v g, func realElem .l2 (centre .l2 X) lambda1 rho alpha w = some (v, g) →
      ∃ g', func realElem .l2 (centre .l2 X) lambda1 rho alpha (swap w) = some (v, g') := by
    intro rho alpha w hw v g hv
    obtain ⟨g1, h1⟩ := func_sq (centre .l2 X) lambda1 rho alpha w
    obtain ⟨g2, h2⟩ := func_sq (centre .l2 X) lambda1 rho alpha (swap w)
    rw [h1] at hv
    have hv' := (Prod.mk.inj (Option.some.inj hv)).1
    rw [adj_swap, hsq _ (dz w hw), hW_transpose (by decide)] at h2
    have ht : total (swap w).1 + total (swap w).2 = total w.1 + total w.2 := by
      change total w.1.transpose + total w.2.transpose = _
      rw [total_transpose, total_transpose]
    rw [ht, hv'] at h2
    exact ⟨g2, h2⟩
  refine ⟨flip minim, fun rho alpha w0 hr ha => ?_, fun fuel p => ?_⟩
  · obtain ⟨h1, h2⟩ := hm rho alpha (swap w0) hr ha
    refine ⟨box _ h1, fun w hw => ?_⟩
    obtain ⟨v, g, v', g', e1, e2, hle⟩ := h2 (swap w) (box w hw)
    obtain ⟨g1, e1'⟩ := val _ _ _ h1 _ _ e1
    obtain ⟨g2, e2'⟩ := val _ _ _ (box w hw) _ _ e2
    exact ⟨v, g1, v', g2, e1', e2', hle⟩
  · unfold notearsLinear
    have h := outer_flip (by decide) minim p fuel p.maxIter ⟨(fun _ _ => 0, fun _ _ => 0), 1, 0, none⟩
    have h' : outer fuel (flip minim) p p.maxIter ⟨(fun _ _ => 0, fun _ _ => 0), 1, 0, none⟩ =
      (outer fuel minim p p.maxIter ⟨(fun _ _ => 0, fun _ _ => 0), 1, 0, none⟩).map fun s => { s with w := swap s.w } := h
    rw [h']
    cases outer fuel minim p p.maxIter ⟨(fun _ _ => 0, fun _ _ => 0), 1, 0, none⟩ with
    | error e => rfl
    | ok s => rfl

/-- Two standardised columns with correlation 1/2: both an optimiser and equal variances. -/
example : ∃ (X : Matrix (Fin 4) (Fin 2) ℝ) (minim : ℝ → ℝ → Doubled ℝ 2 → Doubled ℝ 2), ip (centre .l2 X) 0 0 = ip (centre .l2 X) 1 1 ∧
    ip (centre .l2 X) 0 1 ≠ 0 ∧ Optimal (centre .l2 X) (1 / 10) minim := by
  let X : Matrix (Fin 4) (Fin 2) ℝ := !![2, 1; 1, 2; -2, -1; -1, -2]
  have hX : centre .l2 X = X := centre_of_sum fun j => by
    fin_cases j <;> simp [X, Fin.sum_univ_four]
  have hi : Indep X := by
    intro t ht
    have h1 := ht 1
    have h0 := ht 0
    simp only [X, Fin.sum_univ_two, Matrix.of_apply, Matrix.cons_val', Matrix.cons_val_zero, Matrix.cons_val_one, Matrix.cons_val_fin_one] at h0 h1
    have e0 : t 0 = 0 := by linarith
    have e1 : t 1 = 0 := by linarith
    funext k
    fin_cases k
    · exact e0
    · exact e1
  obtain ⟨minim, hm⟩ := c169_optimal (by decide) hi (lambda1 := 1 / 10) (by norm_num) (by decide)
  refine ⟨X, minim, ?_, ?_, hX.symm ▸ hm⟩
  · rw [hX]
    simp [ip, X, Fin.sum_univ_four]
    norm_num
  · rw [hX]
    simp [ip, X, Fin.sum_univ_four]
    norm_num

end Cdmir.Notears
