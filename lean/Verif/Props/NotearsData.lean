import Verif.Model.NotearsData
import Verif.Lemmas.Simulate
import Verif.Props.Simulate
import Verif.Props.RandomDag
import Mathlib.Analysis.Real.Sqrt
import Mathlib.Analysis.Real.Pi.Bounds
import Mathlib.Tactic.Linarith
import Mathlib.Tactic.FieldSimp
import Mathlib.Tactic.NormNum

/-! C154: the generators of graphs, weights and non-linear data beside NOTEARS. -/

namespace Cdmir.Sim
open BigOperators

/-- C154: for what igraph draws, an undirected graph, one in which every vertex points to older ones, one in which the first `top` point
to the others, the assertion holds: `simulate_dag` returns a matrix of zeros and ones without a cycle. -/
theorem c154_dag {d : Nat} {isDag : Matrix (Fin d) (Fin d) ℚ → Bool} (hd : ∀ M, isDag M = true ↔ ∀ a, ¬Relation.TransGen (fun a b => M a b ≠ 0) a a)
    {g : IgDraw d} (h1 : ∀ a b, g.er a b = 0 ∨ g.er a b = 1) (h2 : ∀ a b, g.sf a b = 0 ∨ g.sf a b = 1) (h3 : ∀ a b, g.bp a b = 0 ∨ g.bp a b = 1)
    (hsf : ∀ a b, g.sf a b ≠ 0 → b < a) {top : Nat} (hbp : ∀ a b, g.bp a b ≠ 0 → a.val < top ∧ top ≤ b.val)
    {t : GraphType} (ht : t ≠ .other) (σ τ : Equiv.Perm (Fin d)) :
    ∃ B, simulateDag isDag t g σ τ = .ok B ∧ (∀ a b, B a b = 0 ∨ B a b = 1) ∧ ∀ a, ¬Relation.TransGen (fun a b => B a b ≠ 0) a a := by
  have key : ∀ M : Matrix (Fin d) (Fin d) ℚ, (∀ a b, M a b = 0 ∨ M a b = 1) → ∀ f : Fin d → Nat, (∀ a b, M a b ≠ 0 → f b < f a) →
      (∀ a b, randomPermutation τ M a b = 0 ∨ randomPermutation τ M a b = 1) ∧
      ∀ a, ¬Relation.TransGen (fun a b => randomPermutation τ M a b ≠ 0) a a := by
    intro M hM f hf
    refine ⟨fun a b => ?_, fun a hc => ?_⟩
    · rw [randomPermutation_apply]
      exact hM _ _
    · have : ∀ x y, Relation.TransGen (fun a b => randomPermutation τ M a b ≠ 0) x y → f (τ.symm y) < f (τ.symm x) := by
        intro x y hxy
        induction hxy with
        | single h => rw [randomPermutation_apply] at h; exact hf _ _ h
        | tail _ h ih => rw [randomPermutation_apply] at h; exact lt_trans (hf _ _ h) ih
      exact lt_irrefl _ (this a a hc)
  have fin : ∀ M : Matrix (Fin d) (Fin d) ℚ, (∀ a b, M a b = 0 ∨ M a b = 1) → ∀ f : Fin d → Nat, (∀ a b, M a b ≠ 0 → f b < f a) →
      ∃ B, (if isDag (randomPermutation τ M) then pure (randomPermutation τ M) else throw .assertion : Except Err _) = .ok B ∧
        (∀ a b, B a b = 0 ∨ B a b = 1) ∧ ∀ a, ¬Relation.TransGen (fun a b => B a b ≠ 0) a a := by
    intro M hM f hf
    obtain ⟨k1, k2⟩ := key M hM f hf
    exact ⟨_, by rw [if_pos ((hd _).2 k2)]; rfl, k1, k2⟩
  cases t with
  | ER =>
    refine fin (trilBelow (randomPermutation σ g.er)) (fun a b => ?_) (fun a => a.val) (fun a b h => ?_)
    · unfold trilBelow
      split
      · rw [randomPermutation_apply]; exact h1 _ _
      · exact Or.inl rfl
    · unfold trilBelow at h
      by_contra hc
      exact h (if_neg hc)
  | SF => exact fin g.sf h2 (fun a => a.val) fun a b h => hsf a b h
  | BP =>
    refine fin g.bp h3 (fun a => if a.val < top then 1 else 0) fun a b h => ?_
    obtain ⟨k1, k2⟩ := hbp a b h
    simp [k1, not_lt.2 k2]
  | other => exact absurd rfl ht

/-- C154: with 'ER' the number of edges is that of the undirected graph drawn: each of its pairs gets one of two directions. -/
theorem c154_edges {d : Nat} {isDag : Matrix (Fin d) (Fin d) ℚ → Bool} {g : IgDraw d} (hs : ∀ a b, g.er a b = g.er b a) (h0 : ∀ a, g.er a a = 0)
    (σ τ : Equiv.Perm (Fin d)) {B : Matrix (Fin d) (Fin d) ℚ} (h : simulateDag isDag .ER g σ τ = .ok B) :
    ∑ a, ∑ b, B a b = (∑ a, ∑ b, g.er a b) / 2 := by
  have hB : B = randomPermutation τ (trilBelow (randomPermutation σ g.er)) := by
    unfold simulateDag at h
    simp only [pure_bind] at h
    split at h
    · exact (Except.ok.inj h).symm
    · cases h
  have perm : ∀ (ρ : Equiv.Perm (Fin d)) (M : Matrix (Fin d) (Fin d) ℚ), ∑ a, ∑ b, randomPermutation ρ M a b = ∑ a, ∑ b, M a b := by
    intro ρ M
    simp only [randomPermutation_apply]
    rw [Equiv.sum_comp ρ.symm fun a => ∑ b, M a (ρ.symm b)]
    exact Finset.sum_congr rfl fun a _ => Equiv.sum_comp ρ.symm fun b => M a b
  rw [hB, perm, eq_div_iff two_ne_zero, ← perm σ g.er]
  have hs' : ∀ a b, randomPermutation σ g.er a b = randomPermutation σ g.er b a := fun a b => by
    rw [randomPermutation_apply, randomPermutation_apply, hs]
  have h0' : ∀ a, randomPermutation σ g.er a a = 0 := fun a => by rw [randomPermutation_apply, h0]
  generalize randomPermutation σ g.er = M at hs' h0'
  have hT : ∑ a, ∑ b, trilBelow M a b = ∑ a, ∑ b, trilBelow M b a := Finset.sum_comm
  rw [mul_two]
  nth_rewrite 2 [hT]
  rw [← Finset.sum_add_distrib]
  refine Finset.sum_congr rfl fun a _ => ?_
  rw [← Finset.sum_add_distrib]
  refine Finset.sum_congr rfl fun b _ => ?_
  unfold trilBelow
  rcases lt_trichotomy a b with h | h | h
  · rw [if_neg (not_lt.2 h.le), if_pos h, zero_add, hs']
  · subst h; simp [h0']
  · rw [if_pos h, if_neg (not_lt.2 h.le), add_zero]

/-- C154: an entry of the weights is the number drawn from the range drawn for it where there is an edge, and zero elsewhere; with
numbers drawn from ranges without zero the graph of the weights is the graph given. -/
theorem c154_weights {d : Nat} {B : Matrix (Fin d) (Fin d) ℚ} (hB : ∀ a b, B a b = 0 ∨ B a b = 1) {k : Nat} {S : Fin d → Fin d → Nat}
    (hS : ∀ a b, S a b < k) (U : Nat → Matrix (Fin d) (Fin d) ℚ) (a b : Fin d) :
    simulateParameter B k S U a b = (if B a b = 1 then U (S a b) a b else 0) ∧
      ((∀ i < k, U i a b ≠ 0) → (simulateParameter B k S U a b ≠ 0 ↔ B a b ≠ 0)) := by
  have key : ∀ k, (List.range k).foldl (fun w i => w + B a b * (if S a b = i then 1 else 0) * U i a b) 0
      = if S a b < k then B a b * U (S a b) a b else 0 := by
    intro k
    induction k with
    | zero => simp
    | succ k ih =>
      rw [List.range_succ, List.foldl_append, List.foldl_cons, List.foldl_nil]
      rw [ih]
      rcases lt_trichotomy (S a b) k with h | h | h
      · rw [if_pos h, if_neg h.ne, if_pos (by omega)]; ring
      · rw [if_neg (by omega), if_pos h, if_pos (by omega), h]; ring
      · rw [if_neg (by omega), if_neg h.ne', if_neg (by omega)]; ring
  have hv : simulateParameter B k S U a b = if B a b = 1 then U (S a b) a b else 0 := by
    unfold simulateParameter
    rw [Matrix.of_apply, key, if_pos (hS a b)]
    rcases hB a b with h | h <;> simp [h]
  refine ⟨hv, fun hU => ?_⟩
  rw [hv]
  rcases hB a b with h | h
  · simp [h]
  · simp [h, hU _ (hS a b)]

section
variable {K : Type} [CommRing K] [DecidableEq K] {n N : Nat}

theorem map_cols {B : Matrix (Fin n) (Fin n) K} {j : Fin n} {X Y : Tab N n K} (h : ∀ i, B i j ≠ 0 → ∀ s, X s i = Y s i) :
    ((preds B j).map fun i s => X s i) = (preds B j).map fun i s => Y s i :=
  List.map_congr_left fun i hi => funext fun s => h i (mem_preds.1 hi) s

/-- C154: for every acyclic graph, known names and a scale for each node (a longer list will do), `simulate_nonlinear_sem` returns the one
table in which each column is the drawn function of the columns of the parents plus scaled noise, whatever the order of igraph. -/
theorem c154_nonlinear {topo : Matrix (Fin n) (Fin n) K → List (Fin n)} {B : Matrix (Fin n) (Fin n) K} (acyc : Spec.Acyclic fun i j => B i j ≠ 0)
    (hp : (topo B).Perm (List.finRange n)) (ho : (topo B).Pairwise fun a b => B b a = 0) {t : SemType} {nd : NoiseDist} (ht : t ≠ .other)
    (hn : nd ≠ .other) {scale : Scale K} {sv : Fin n → K} (hs : ∀ j : Fin n, scaleAt scale j = .ok (sv j)) (d : SemDraw N n K) :
    let eqs := fun X : Tab N n K => ∀ s j, X s j =
      (if ∃ i, B i j ≠ 0 then d.func t j (((List.finRange n).filter fun i => decide (B i j ≠ 0)).map fun i s => X s i) s else 0) + sv j * d.noise j nd s
    ∃ X, simNonlinearSem topo B N t nd scale d = .ok X ∧ eqs X ∧ ∀ Y, eqs Y → Y = X := by
  intro eqs
  set value : Fin n → Tab N n K → Except Err (Fin N → K) := fun j X => do
    let c ← scaleAt scale j
    singleSem d t nd (preds B j) j c X with hval
  have hv : ∀ j X, value j X = .ok fun s =>
      (if ∃ i, B i j ≠ 0 then d.func t j ((preds B j).map fun i s => X s i) s else 0) + sv j * d.noise j nd s := by
    intro j X
    simp only [hval, hs, ok_bind, singleSem, if_neg hn, if_neg ht]
    by_cases hpa : ∃ i, B i j ≠ 0
    · have : (preds B j).length ≠ 0 := by
        obtain ⟨i, hi⟩ := hpa
        exact (List.length_pos_of_mem (mem_preds.2 hi)).ne'
      rw [if_neg this]
      simp only [if_pos hpa, mul_comm (sv j)]
      rfl
    · have : (preds B j).length = 0 := by
        rw [List.length_eq_zero_iff, List.eq_nil_iff_forall_not_mem]
        exact fun i hi => hpa ⟨i, mem_preds.1 hi⟩
      rw [if_pos this]
      simp only [if_neg hpa, zero_add, mul_comm (sv j)]
      rfl
  have irr := irr_of_acyclic acyc
  have dep : ∀ j (X Y : Tab N n K), (∀ i, B i j ≠ 0 → ∀ s, X s i = Y s i) → value j X = value j Y := by
    intro j X Y q
    rw [hv, hv]
    simp only [map_cols q]
  have pw : (topo B).Pairwise fun a b => ¬B b a ≠ 0 := by simpa using ho
  obtain ⟨X, hX⟩ := foldlM_ok hv (topo B) (fun _ _ => 0)
  have heq := fillM_spec irr dep hp pw hX
  refine ⟨X, ?_, fun s j => ?_, fun Y hY => ?_⟩
  · unfold simNonlinearSem
    rw [if_neg (by rw [hp.length_eq, List.length_finRange]; simp)]
    exact hX
  · have := heq j
    rw [hv] at this
    exact (congrFun (Except.ok.inj this) s).symm
  · refine fixed_unique irr dep hp pw (fun j => ?_) heq
    rw [hv]
    congr 1
    funext s
    exact (hY s j).symm

/-- C154: an unknown name of the functions is noticed only if some node has a parent. -/
theorem c154_unknown {topo : Matrix (Fin n) (Fin n) K → List (Fin n)} {B : Matrix (Fin n) (Fin n) K}
    (hp : (topo B).Perm (List.finRange n)) {nd : NoiseDist}
    (hn : nd ≠ .other) {scale : Scale K} {sv : Fin n → K} (hs : ∀ j : Fin n, scaleAt scale j = .ok (sv j)) (d : SemDraw N n K) :
    simNonlinearSem topo B N .other nd scale d = .error .value ↔ ∃ i j, B i j ≠ 0 := by
  have hlen : (topo B).length = n := by rw [hp.length_eq, List.length_finRange]
  set value : Fin n → Tab N n K → Except Err (Fin N → K) := fun j X => do
    let c ← scaleAt scale j
    singleSem d .other nd (preds B j) j c X with hval
  have hv : ∀ j X, value j X = if preds B j = [] then .ok (fun s => d.noise j nd s * sv j) else .error .value := by
    intro j X
    simp only [hval, hs, ok_bind, singleSem, if_neg hn, if_true, List.length_eq_zero_iff]
    split <;> rfl
  have hfold : ∀ (l : List (Fin n)) X0, l.foldlM (fun X j => do let v ← value j X; pure (setCol X j v)) X0 = Except.error Err.value ↔ ∃ j ∈ l, preds B j ≠ [] := by
    intro l
    induction l with
    | nil => intro X0; simp [pure, Except.pure]
    | cons j l ih =>
      intro X0
      rw [List.foldlM_cons, hv]
      by_cases h : preds B j = []
      · rw [if_pos h, ok_bind]
        have := ih (setCol X0 j fun s => d.noise j nd s * sv j)
        rw [pure_bind, this]
        simp [h]
      · rw [if_neg h]
        refine ⟨fun _ => ⟨j, List.mem_cons_self, h⟩, fun _ => rfl⟩
  unfold simNonlinearSem
  rw [if_neg (by simp [hlen])]
  refine (hfold (topo B) _).trans ?_
  constructor
  · rintro ⟨j, -, hj⟩
    obtain ⟨i, hi⟩ := List.exists_mem_of_ne_nil _ hj
    exact ⟨i, j, mem_preds.1 hi⟩
  · rintro ⟨i, j, h⟩
    exact ⟨j, hp.mem_iff.2 (List.mem_finRange j), fun hc => by have := mem_preds.2 h; rw [hc] at this; simp at this⟩

/-- C154, "the noise scale may be a number, as in `simulate_linear_sem`" is false: with at least one node it raises `TypeError`. -/
theorem c154_scalar_false {topo : Matrix (Fin n) (Fin n) K → List (Fin n)} {B : Matrix (Fin n) (Fin n) K} (hp : (topo B).Perm (List.finRange n))
    (h0 : 0 < n) (t : SemType) (nd : NoiseDist) (c : K) (d : SemDraw N n K) : simNonlinearSem topo B N t nd (.scalar c) d = .error .type := by
  have hlen : (topo B).length = n := by rw [hp.length_eq, List.length_finRange]
  unfold simNonlinearSem
  rw [if_neg (by simp [hlen])]
  unfold fillM
  rcases h : topo B with _ | ⟨j, l⟩
  · rw [h] at hlen
    simp at hlen
    omega
  · rw [List.foldlM_cons]
    rfl

end

section
variable {K : Type} [CommRing K] [DecidableEq K] {n : Nat}

theorem simLinearSem_eq (nx : Nx n K) (np : Np n K) (W : Matrix (Fin n) (Fin n) K) (N : Option Nat) {t : NoiseType} (ht : t ≠ .other)
    (hl : t ≠ .laplace) (sc : Scale K) (d : ∀ N, LinDraw N n K) : simLinearSem nx np W N t sc d = simLinear nx np W N t sc d := by
  have : ∀ N sv, singleLinSem (d N) t sv W = singleLinear (d N) t sv W := by
    intro N sv
    funext j X
    unfold singleLinSem
    rw [if_neg hl]
  unfold simLinearSem simLinear
  simp only [this, if_neg ht]
  rfl

/-- C154: with one of its four kinds of additive noise `simulate_linear_sem` returns the one table of the linear equations, also with
drawn scales. -/
theorem c154_linear (nx : Nx n K) (np : Np n K) (W : Matrix (Fin n) (Fin n) K) (N : Nat) {t : NoiseType}
    (d : ∀ N, LinDraw N n K) (hnx : nx.Right W) (acyc : Spec.Acyclic (fun i j => W i j ≠ 0)) (ht : t.Additive) (hl : t ≠ .laplace)
    (u : Fin n → K) :
    ∃ X : Tab N n K, simLinearSemVar nx np W (some N) t u d = Except.ok ⟨N, X⟩ ∧
      (∀ s j, X s j = ∑ i, X s i * W i j + u j * (d N).noise j t s) ∧
      ∀ Y : Tab N n K, (∀ s j, Y s j = ∑ i, Y s i * W i j + u j * (d N).noise j t s) → Y = X := by
  have hto : t ≠ .other := by rintro rfl; simp [NoiseType.Additive] at ht
  have hs : ScaleOf (.vec (List.ofFn u)) u := by simp [ScaleOf]
  obtain ⟨X, h1, h2, h3⟩ := c70_linear nx np W N d hnx acyc ht hs
  exact ⟨X, by rw [simLinearSemVar, simLinearSem_eq nx np W _ hto hl, h1], h2, h3⟩

/-- C154, "the scale of the noise matters for every kind" is false: for the binary and the counting kind the table is the same for all
scales. -/
theorem c154_scale_false (nx : Nx n K) (np : Np n K) (W : Matrix (Fin n) (Fin n) K) (N : Nat) {t : NoiseType}
    (d : ∀ N, LinDraw N n K) (ht : t = .logistic ∨ t = .poisson) (u v : Fin n → K) :
    simLinearSemVar nx np W (some N) t u d = simLinearSemVar nx np W (some N) t v d := by
  unfold simLinearSemVar simLinearSem
  have : ∀ w : Fin n → K, scaleVec n (.vec (List.ofFn w)) = .ok fun i => (List.ofFn w).getD i.val 0 := by
    intro w
    simp [scaleVec, pure, Except.pure]
  rw [this, this]
  rcases ht with rfl | rfl <;> rfl

end

/-- C154: the effects of 'mlp' and 'mim' are bounded whatever the parents: by the sum of the outer weights, and by three. With 100
hidden units and weights up to two that is 200. -/
theorem c154_bounded {m : Nat} (hidden : Nat) (w1 : Fin m → Fin hidden → ℝ) (w2 : Fin hidden → ℝ) {c : ℝ} (hc : ∀ h, |w2 h| ≤ c)
    (v1 v2 v3 x : Fin m → ℝ) : |mlpFun hidden w1 w2 x| ≤ hidden * c ∧ |mimFun v1 v2 v3 x| ≤ 3 := by
  constructor
  · unfold mlpFun
    refine le_trans (Finset.abs_sum_le_sum_abs _ _) ?_
    refine le_trans (Finset.sum_le_sum (g := fun _ => c) fun h _ => ?_) ?_
    · have hp := Real.exp_pos (-∑ i, x i * w1 i h)
      rw [abs_mul, abs_of_pos (by positivity)]
      have h1 : 1 / (1 + Real.exp (-∑ i, x i * w1 i h)) ≤ 1 := by rw [div_le_one (by linarith)]; linarith
      calc _ ≤ 1 * |w2 h| := mul_le_mul_of_nonneg_right h1 (abs_nonneg _)
        _ ≤ c := by rw [one_mul]; exact hc h
    · simp
  · unfold mimFun
    have h1 : |Real.tanh (∑ i, x i * v1 i)| ≤ 1 := (Real.abs_tanh_lt_one _).le
    have h2 := Real.abs_cos_le_one (∑ i, x i * v2 i)
    have h3 := Real.abs_sin_le_one (∑ i, x i * v3 i)
    exact le_trans (abs_add_three _ _ _) (by linarith)

/-- C154: the effect of 'pow2' does not see the signs of the parents, that of 'pow3' turns with them; both grow by the power. -/
theorem c154_power {K : Type} [CommRing K] {m : Nat} (e hidden : Nat) (w1 : Fin m → Fin hidden → K) (w2 : Fin hidden → K) (c : K)
    (x : Fin m → K) : powFun e hidden w1 w2 (fun i => c * x i) = c ^ e * powFun e hidden w1 w2 x := by
  unfold powFun
  rw [Finset.mul_sum]
  refine Finset.sum_congr rfl fun h _ => ?_
  have : ∑ i, c * x i * w1 i h = c * ∑ i, x i * w1 i h := by
    rw [Finset.mul_sum]
    exact Finset.sum_congr rfl fun i _ => mul_assoc _ _ _
  rw [this, mul_pow, mul_assoc]

/-- C154: `simulate_pariwise` with `linear` writes the effect as the weight times the cause plus noise, in the second column or, with
`direct = 1`, in the first. -/
theorem c154_pair {K : Type} [CommRing K] [DecidableEq K] {N : Nat} (weight : K) (f : K → K) (c e : Fin N → K) (s : Fin N) :
    (∀ direct, direct ≠ 1 → simPair weight true direct f c e s 0 = c s ∧
      simPair weight true direct f c e s 1 = weight * simPair weight true direct f c e s 0 + e s) ∧
    simPair weight true 1 f c e s 1 = c s ∧ simPair weight true 1 f c e s 0 = weight * simPair weight true 1 f c e s 1 + e s ∧
    ∀ weight' direct, simPair weight false direct f c e = simPair weight' false direct f c e := by
  refine ⟨fun direct hd => ?_, ?_, ?_, fun weight' direct => rfl⟩
  · simp [simPair, hd, add_comm]
  · simp [simPair]
  · simp [simPair, add_comm]

/-- C154, "the cause has the variance asked for" holds of the normal, uniform and exponential draws; it is false of the Gumbel draws
(the standard deviation is used as their scale) for every positive variance, and of the binary and counting ones for all but one. -/
theorem c154_pair_var {var : ℝ} (hv : 0 < var) (t : PairDist) :
    pairScale var t ^ 2 * stdVar t = var ↔ t = .gauss ∨ t = .uniform ∨ t = .exp ∨ (t = .logistic ∧ var = 0.24) ∨ (t = .poisson ∧ var = 1) := by
  have hg : Real.pi ^ 2 / 6 ≠ 1 := by
    have := Real.pi_gt_three
    intro h
    nlinarith
  cases t
  · simp [pairScale, stdVar, Real.sq_sqrt hv.le]
  · simp only [pairScale, stdVar]
    rw [Real.sq_sqrt (by linarith)]
    simp
    ring
  · simp only [pairScale, stdVar]
    rw [Real.sq_sqrt hv.le]
    simp only [reduceCtorEq, false_and, or_self, iff_false]
    intro h
    exact hg (mul_left_cancel₀ hv.ne' (by rw [h, mul_one]))
  · simp [pairScale, stdVar, Real.sq_sqrt hv.le]
  · simp only [pairScale, stdVar, reduceCtorEq, false_or, true_and, false_and, or_false]
    constructor
    · intro h; norm_num at h ⊢; linarith
    · intro h; norm_num at h ⊢; linarith
  · simp only [pairScale, stdVar, reduceCtorEq, false_or, true_and, false_and]
    constructor
    · intro h; linarith
    · intro h; rw [h]; norm_num

/-- C154: `simulate_Test` is the linear model with the weights 3, 1 and 3/5; the total effect of the first on the third is 14/5. -/
theorem c154_test {K : Type} [Field K] [CharZero K] {N : Nat} (z : Tab N 3 K) (s : Fin N) :
    simTest z s 0 = z s 0 ∧ simTest z s 1 = 3 * simTest z s 0 + z s 1 ∧ simTest z s 2 = simTest z s 0 + 3 / 5 * simTest z s 1 + z s 2 ∧
      simTest z s 2 = 14 / 5 * z s 0 + 3 / 5 * z s 1 + z s 2 := by
  refine ⟨rfl, ?_, ?_, ?_⟩ <;> simp [simTest] <;> ring

/-- C154, "for uniform the noise lies between minus and plus the scale" (the text of utils.py L89) is false: the bounds are the square
root of three times the scale, and every number in between can occur. -/
theorem c154_uniform_false {scale : ℝ} (hs : 0 < scale) (z : ℝ) :
    (∃ u : ℝ, 0 ≤ u ∧ u < 1 ∧ uniformNoise Real.sqrt scale u = z) ↔ -(Real.sqrt 3 * scale) ≤ z ∧ z < Real.sqrt 3 * scale := by
  have h12 : Real.sqrt 12 = 2 * Real.sqrt 3 := by
    rw [show (12 : ℝ) = 2 ^ 2 * 3 by norm_num, Real.sqrt_mul (by positivity), Real.sqrt_sq (by norm_num)]
  have h3 : 0 < Real.sqrt 3 := Real.sqrt_pos.2 (by norm_num)
  have hz : ∀ u, uniformNoise Real.sqrt scale u = Real.sqrt 3 * scale * (2 * u - 1) := by
    intro u
    unfold uniformNoise
    rw [h12]
    ring
  have hp : 0 < Real.sqrt 3 * scale := by positivity
  constructor
  · rintro ⟨u, h0, h1, rfl⟩
    rw [hz]
    constructor <;> nlinarith
  · rintro ⟨h1, h2⟩
    refine ⟨(z / (Real.sqrt 3 * scale) + 1) / 2, ?_, ?_, ?_⟩
    · have : -1 ≤ z / (Real.sqrt 3 * scale) := by rw [le_div_iff₀ hp]; linarith
      linarith
    · have : z / (Real.sqrt 3 * scale) < 1 := by rw [div_lt_one hp]; exact h2
      linarith
    · rw [hz]
      field_simp
      ring

/-- The default ranges: with numbers between 1/2 and 2 up to sign, an edge of a chain of three gets its number. -/
example : let B : Matrix (Fin 3) (Fin 3) ℚ := fun a b => if a.val + 1 = b.val then 1 else 0
    simulateParameter B 2 (fun a _ => a.val % 2) (fun i a b => if i = 0 then -(1 / 2) - a.val else 1 + b.val / 2) 0 1 = -1 / 2 ∧
      simulateParameter B 2 (fun a _ => a.val % 2) (fun i a b => if i = 0 then -(1 / 2) - a.val else 1 + b.val / 2) 1 2 = 2 ∧
      simulateParameter B 2 (fun a _ => a.val % 2) (fun i a b => if i = 0 then -(1 / 2) - a.val else 1 + b.val / 2) 2 1 = 0 := by
  decide +kernel

/-- A triangle drawn by igraph becomes a graph with three edges. -/
example : ∃ B, simulateDag (d := 3) (fun _ => true) .ER ⟨fun a b => if a = b then 0 else 1, 0, 0⟩ (Equiv.swap 0 1) (Equiv.swap 1 2) = .ok B ∧
    ∑ a, ∑ b, B a b = 3 := by
  refine ⟨_, rfl, ?_⟩
  decide +kernel

/-- A chain of three with the scales 1, 2, 3 and a fourth that is not used. -/
example : let B : Matrix (Fin 3) (Fin 3) ℚ := fun a b => if a.val + 1 = b.val then 1 else 0
    (Spec.Acyclic fun i j => B i j ≠ 0) ∧ [(0 : Fin 3), 1, 2].Pairwise (fun a b => B b a = 0) ∧
      (∀ j : Fin 3, scaleAt (.vec [1, 2, 3, 4] : Scale ℚ) j = .ok ((j.val : ℚ) + 1)) := by
  refine ⟨acyclic_of_lt fun i j h => ?_, by decide +kernel, fun j => ?_⟩
  · by_contra hc
    exact h (if_neg (by rw [Fin.lt_def] at hc; omega))
  · fin_cases j <;> simp [scaleAt, pure, Except.pure] <;> norm_num

/-- Two hidden units: doubling the parents multiplies the effect of 'pow2' by four. -/
example : powFun (K := ℚ) (m := 2) 2 2 (fun i h => i.val + 2 * h.val) (fun h => 1 - 3 * h.val) (fun i => 2 * (i.val + 1)) =
    4 * powFun (K := ℚ) (m := 2) 2 2 (fun i h => i.val + 2 * h.val) (fun h => 1 - 3 * h.val) (fun i => i.val + 1) ∧
    powFun (K := ℚ) (m := 2) 2 2 (fun i h => i.val + 2 * h.val) (fun h => 1 - 3 * h.val) (fun i => i.val + 1) = -124 := by
  decide +kernel

end Cdmir.Sim
