import Verif.Lemmas.NotearsGrad
import Mathlib.Algebra.Order.Archimedean.Basic
import Mathlib.Data.Rat.Floor
import Mathlib.Data.Fintype.BigOperators
import Mathlib.Tactic.NormNum
import Mathlib.Tactic.IntervalCases

/-! C57-C59: the acyclicity constraint, the gradients and the augmented Lagrangian loop of the gradient-based searches. -/

namespace Cdmir
open BigOperators Spec Notears

section
variable {K : Type} [Field K] [LinearOrder K] [IsStrictOrderedRing K] {d : Nat}

/-- A two-cycle among three variables. -/
def twoCycle : Matrix (Fin 3) (Fin 3) ℚ := fun i j => if (i, j) = (0, 1) ∨ (i, j) = (1, 0) then 1 / 2 else 0
/-- A triangle without a cycle. -/
def triangle : Matrix (Fin 3) (Fin 3) ℚ := fun i j => if i < j then -2 else 0

/-- C57, `notears_linear`: the constraint is never negative and vanishes exactly on the weights of a DAG. -/
theorem c57_linear (hd : 0 < d) (W : Matrix (Fin d) (Fin d) K) :
    0 ≤ (hW W).1 ∧ ((hW W).1 = 0 ↔ Acyclic fun i j => W i j ≠ 0) := by
  have hA : ∀ i j, 0 ≤ had W W i j := fun i j => mul_self_nonneg _
  rw [hW_fst]
  refine ⟨hOf_nonneg hd.ne' hA, (hOf_zero_iff hd.ne' hA).trans ?_⟩
  simp [had]

example : (hW triangle).1 = 0 ∧ (hW twoCycle).1 = 1 / 24 := by decide +kernel

/-- C57, `h_func` of linear_ent.py: the same with the trace. -/
theorem c57_trace (hd : 0 < d) (W : Matrix (Fin d) (Fin d) K) :
    0 ≤ hTrace (had W W) ∧ (hTrace (had W W) = 0 ↔ Acyclic fun i j => W i j ≠ 0) := by
  have e : hTrace (had W W) = (hW W).1 := by rw [hW_fst, hOf_trace hd.ne']; rfl
  rw [e]
  exact c57_linear hd W

example : hTrace (had triangle triangle) = 0 ∧ hTrace (had twoCycle twoCycle) = 1 / 24 := by decide +kernel

/-- C57, the network model: variable `i` enters the network of variable `j` iff some first-layer weight is not zero. -/
theorem c57_mlp (hd : 0 < d) {m : Nat} (fc : Fin d → Fin m → Fin d → K) :
    0 ≤ hOf (mlpA fc) ∧ (hOf (mlpA fc) = 0 ↔ Acyclic fun i j => ∃ l, fc j l i ≠ 0) := by
  have hA : ∀ i j, 0 ≤ mlpA fc i j := fun i j => Finset.sum_nonneg fun l _ => mul_self_nonneg _
  refine ⟨hOf_nonneg hd.ne' hA, (hOf_zero_iff hd.ne' hA).trans ?_⟩
  have e : (fun i j => mlpA fc i j ≠ 0) = fun i j => ∃ l, fc j l i ≠ 0 := by
    funext i j
    unfold mlpA
    rw [ne_eq, Finset.sum_eq_zero_iff_of_nonneg fun l _ => mul_self_nonneg _]
    simp
  rw [e]

example : hOf (mlpA (m := 2) fun j l i => if i < j then twoCycle i j + l.val else 0) = 0 ∧
    hOf (mlpA (m := 2) fun j l i => if l = 0 then twoCycle i j else 0) = 1 / 24 := by decide +kernel

/-- C57, the basis-expansion model. -/
theorem c57_sobolev (hd : 0 < d) {k : Nat} (fc : Fin d → Fin d → Fin k → K) :
    0 ≤ hOf (sobolevA fc) ∧ (hOf (sobolevA fc) = 0 ↔ Acyclic fun i j => ∃ l, fc j i l ≠ 0) := by
  have hA : ∀ i j, 0 ≤ sobolevA fc i j := fun i j => Finset.sum_nonneg fun l _ => mul_self_nonneg _
  refine ⟨hOf_nonneg hd.ne' hA, (hOf_zero_iff hd.ne' hA).trans ?_⟩
  have e : (fun i j => sobolevA fc i j ≠ 0) = fun i j => ∃ l, fc j i l ≠ 0 := by
    funext i j
    unfold sobolevA
    rw [ne_eq, Finset.sum_eq_zero_iff_of_nonneg fun l _ => mul_self_nonneg _]
    simp
  rw [e]

example : hOf (sobolevA (k := 2) fun j i l => if i < j then twoCycle i j + l.val else 0) = 0 ∧
    hOf (sobolevA (k := 2) fun j i l => if l = 0 then twoCycle i j else 0) = 1 / 24 := by decide +kernel

end

section
variable {n d : Nat}

/-- The elementary functions, each from its definition over the reals. -/
noncomputable def elemR : Elem ℝ :=
  { logaddexp0 := fun x => Real.log (Real.exp 0 + Real.exp x), sigmoid := fun x => 1 / (1 + Real.exp (-x)), exp := Real.exp }

/-- C58, the constraint: along every curve of weights the value changes at the rate the reported gradient gives. -/
theorem c58_constraint (hd : 0 < d) {W : ℝ → Matrix (Fin d) (Fin d) ℝ} {V : Matrix (Fin d) (Fin d) ℝ} {s : ℝ}
    (h : ∀ i j, HasDerivAt (fun x => W x i j) (V i j) s) :
    HasDerivAt (fun x => (hW (W x)).1) (∑ i, ∑ j, (hW (W s)).2 i j * V i j) s :=
  hW_deriv hd.ne' h

/-- C58, the losses: an accepted loss type gives a value and a gradient everywhere, and the gradient is right. -/
theorem c58_loss {t : LossType} (ht : t ≠ .other) (X : Matrix (Fin n) (Fin d) ℝ) {W : ℝ → Matrix (Fin d) (Fin d) ℝ}
    {V : Matrix (Fin d) (Fin d) ℝ} {s : ℝ} (h : ∀ i j, HasDerivAt (fun x => W x i j) (V i j) s) :
    ∃ (f : ℝ → ℝ) (g : ℝ → Matrix (Fin d) (Fin d) ℝ), (∀ x, loss elemR t X (W x) = some (f x, g x)) ∧
      HasDerivAt f (∑ i, ∑ j, g s i j * V i j) s :=
  loss_deriv ht X h

/-- C58, the values of the losses, written out: squared residuals, cross entropy and Poisson likelihood averaged over the
samples; every other name is refused. -/
theorem c58_values (X : Matrix (Fin n) (Fin d) ℝ) (W : Matrix (Fin d) (Fin d) ℝ) :
    (loss elemR .l2 X W).map Prod.fst = some (1 / 2 / n * ∑ i, ∑ j, (X i j - ∑ l, X i l * W l j) ^ 2) ∧
    (loss elemR .logistic X W).map Prod.fst =
      some (1 / n * ∑ i, ∑ j, (Real.log (1 + Real.exp (∑ l, X i l * W l j)) - X i j * ∑ l, X i l * W l j)) ∧
    (loss elemR .poisson X W).map Prod.fst =
      some (1 / n * ∑ i, ∑ j, (Real.exp (∑ l, X i l * W l j) - X i j * ∑ l, X i l * W l j)) ∧
    loss elemR .other X W = none := by
  refine ⟨?_, ?_, ?_, rfl⟩ <;> simp [loss, elemR, total, had, Matrix.mul_apply, pow_two]

/-- C58: for the squared loss the data are centred: every column has mean zero and rows keep their differences; for the other losses
they stay as they are. -/
theorem c58_centre (hn : n ≠ 0) (X : Matrix (Fin n) (Fin d) ℝ) :
    (∀ j, ∑ i, centre .l2 X i j = 0) ∧ (∀ i i' j, centre .l2 X i j - centre .l2 X i' j = X i j - X i' j) ∧
      ∀ t, t ≠ .l2 → centre t X = X := by
  refine ⟨fun j => ?_, fun i i' j => ?_, fun t ht => ?_⟩
  · have : (n : ℝ) ≠ 0 := Nat.cast_ne_zero.2 hn
    have e : ∀ i, centre .l2 X i j = X i j - (∑ l, X l j) / n := fun _ => rfl
    simp only [e, Finset.sum_sub_distrib, Finset.sum_const, Finset.card_univ, Fintype.card_fin, nsmul_eq_mul]
    rw [mul_div_cancel₀ _ this, sub_self]
  · simp [centre]
  · simp [centre, ht]

/-- C58, the augmented Lagrangian: the gradient over both halves of the doubled variables is right. -/
theorem c58_lagrangian (hd : 0 < d) {t : LossType} (ht : t ≠ .other) (X : Matrix (Fin n) (Fin d) ℝ) (lambda1 rho alpha : ℝ)
    {w : ℝ → Doubled ℝ d} {v : Doubled ℝ d} {s : ℝ} (h1 : ∀ i j, HasDerivAt (fun x => (w x).1 i j) (v.1 i j) s)
    (h2 : ∀ i j, HasDerivAt (fun x => (w x).2 i j) (v.2 i j) s) :
    ∃ (f : ℝ → ℝ) (g : ℝ → Doubled ℝ d), (∀ x, func elemR t X lambda1 rho alpha (w x) = some (f x, g x)) ∧
      (∀ x, ∃ l, (loss elemR t X (fun i j => (w x).1 i j - (w x).2 i j)).map Prod.fst = some l ∧
        f x = l + rho / 2 * ((hW fun i j => (w x).1 i j - (w x).2 i j).1) ^ 2 +
          alpha * (hW fun i j => (w x).1 i j - (w x).2 i j).1 + lambda1 * ∑ i, ∑ j, ((w x).1 i j + (w x).2 i j)) ∧
      HasDerivAt f ((∑ i, ∑ j, (g s).1 i j * v.1 i j) + ∑ i, ∑ j, (g s).2 i j * v.2 i j) s := by
  obtain ⟨f, g, e, hf⟩ := func_deriv hd.ne' ht X lambda1 rho alpha h1 h2
  refine ⟨f, g, e, fun x => ?_, hf⟩
  have q := e x
  unfold func at q
  change (do let (l, gLoss) ← loss elemR t X (adj (w x)); _) = _ at q
  cases k : loss elemR t X (adj (w x)) with
  | none => rw [k] at q; simp at q
  | some r =>
    rw [k] at q
    simp only [Option.bind_eq_bind, Option.bind_some, Option.pure_def, Option.some.injEq, Prod.mk.injEq] at q
    refine ⟨r.1, by rw [show (fun i j => (w x).1 i j - (w x).2 i j) = adj (w x) from rfl, k]; rfl, ?_⟩
    have q1 : r.1 + 1 / 2 * rho * (hW (adj (w x))).1 * (hW (adj (w x))).1 + alpha * (hW (adj (w x))).1 +
        lambda1 * ((∑ i, ∑ j, (w x).1 i j) + ∑ i, ∑ j, (w x).2 i j) = f x := q.1
    rw [← q1]
    simp only [Finset.sum_add_distrib]
    rw [show (fun i j => (w x).1 i j - (w x).2 i j) = adj (w x) from rfl]
    ring

/-- The hypotheses of the four theorems hold for lines: `W + x V` moves at rate `V`. -/
example (W V : Matrix (Fin d) (Fin d) ℝ) (s : ℝ) (i j : Fin d) : HasDerivAt (fun x => W i j + x * V i j) (V i j) s := by
  simpa using ((hasDerivAt_id s).mul_const (V i j)).const_add (W i j)

/-- A case with a gradient that is not zero: at the two-cycle, both cycle weights count. -/
example : (hW twoCycle).2 0 1 = 1 / 6 ∧ (hW twoCycle).2 0 2 = 0 := by decide +kernel

end

section
variable {K : Type} [Field K] [LinearOrder K] [IsStrictOrderedRing K] {d : Nat}

omit [IsStrictOrderedRing K] in
theorem inner_new {minim : K → K → Doubled K d → Doubled K d} {rhoMax alpha : K} {h : Option K} {w : Doubled K d}
    {fuel : Nat} {rho rho' : K} {new new' : Option (Doubled K d × K)}
    (e : inner minim rhoMax alpha h w fuel rho new = .ok (rho', new'))
    (hn : ∀ q, new = some q → q.2 = (hW (adj q.1)).1 ∧ ∃ r a w, q.1 = minim r a w) :
    ∀ q, new' = some q → q.2 = (hW (adj q.1)).1 ∧ ∃ r a w, q.1 = minim r a w := by
  induction fuel generalizing rho new with
  | zero =>
    unfold inner at e
    split at e
    · exact absurd e (by simp [throw, throwThe, MonadExceptOf.throw])
    · simp only [pure, Except.pure, Except.ok.injEq, Prod.mk.injEq] at e
      rw [← e.2]; exact hn
  | succ fuel ih =>
    unfold inner at e
    split at e
    · simp only at e
      split at e
      · exact ih e fun q hq => by
          simp only [Option.some.injEq] at hq
          rw [← hq]; exact ⟨rfl, _, _, _, rfl⟩
      · simp only [pure, Except.pure, Except.ok.injEq, Prod.mk.injEq] at e
        intro q hq
        rw [← e.2, Option.some.injEq] at hq
        rw [← hq]; exact ⟨rfl, _, _, _, rfl⟩
    · simp only [pure, Except.pure, Except.ok.injEq, Prod.mk.injEq] at e
      rw [← e.2]; exact hn

theorem inner_total {minim : K → K → Doubled K d → Doubled K d} {rhoMax alpha : K} {h : Option K} {w : Doubled K d}
    {fuel : Nat} {rho : K} {new : Option (Doubled K d × K)} (hr : rhoMax ≤ rho * 10 ^ fuel) :
    ∃ rho' new', inner minim rhoMax alpha h w fuel rho new = .ok (rho', new') ∧
      (rho' = rho ∨ ∃ k, rho' = rho * 10 ^ k) ∧ (rho < rhoMax ∨ new.isSome → new'.isSome) := by
  induction fuel generalizing rho new with
  | zero =>
    unfold inner
    rw [if_neg (by simpa using hr)]
    refine ⟨rho, new, rfl, .inl rfl, fun q => q.resolve_left (by simpa using hr)⟩
  | succ fuel ih =>
    unfold inner
    split
    · simp only
      split
      · obtain ⟨r, nw, e, hk, hs⟩ := ih (rho := rho * 10) (new := some (minim rho alpha w, (hW (adj (minim rho alpha w))).1))
          (by rw [pow_succ'] at hr; linarith)
        refine ⟨r, nw, e, .inr ?_, fun _ => hs (.inr rfl)⟩
        rcases hk with rfl | ⟨k, rfl⟩
        · exact ⟨1, by ring⟩
        · exact ⟨k + 1, by ring⟩
      · exact ⟨_, _, rfl, .inl rfl, fun _ => rfl⟩
    · rename_i q
      exact ⟨_, _, rfl, .inl rfl, fun k => k.resolve_left q⟩

theorem outer_total {minim : K → K → Doubled K d → Doubled K d} {p : Params K} {fuel : Nat} (hf : p.rhoMax ≤ 10 ^ fuel)
    {k : Nat} {s : State K d} (h1 : 1 ≤ s.rho) (hs : s.rho < p.rhoMax) : ∃ s', outer fuel minim p k s = .ok s' := by
  induction k generalizing s with
  | zero => exact ⟨s, rfl⟩
  | succ k ih =>
    have hp : (0 : K) < 10 ^ fuel := by positivity
    obtain ⟨r, nw, e, hk, hn⟩ := inner_total (minim := minim) (rhoMax := p.rhoMax) (alpha := s.alpha) (h := s.h) (w := s.w)
      (fuel := fuel) (rho := s.rho) (new := none) (by nlinarith)
    unfold outer
    rw [e]
    obtain ⟨⟨w, h⟩, rfl⟩ := Option.isSome_iff_exists.1 (hn (.inl hs))
    simp only [bind, Except.bind]
    split
    · exact ⟨_, rfl⟩
    · rename_i q
      push Not at q
      refine ih ?_ q.2
      rcases hk with rfl | ⟨k, rfl⟩
      · exact h1
      · have : (1 : K) ≤ 10 ^ k := one_le_pow₀ (by norm_num)
        change 1 ≤ s.rho * 10 ^ k
        nlinarith

omit [IsStrictOrderedRing K] in
/-- What the loop leaves: an output of the optimiser (or the start), and the reason why it stopped. -/
theorem outer_end {minim : K → K → Doubled K d → Doubled K d} {p : Params K} {fuel k : Nat} {s s' : State K d}
    (e : outer fuel minim p k s = .ok s') (hk : k ≠ 0) :
    (∃ r a w, s'.w = minim r a w) ∧ s'.h = some (hW (adj s'.w)).1 := by
  induction k generalizing s with
  | zero => exact absurd rfl hk
  | succ k ih =>
    unfold outer at e
    cases i : inner minim p.rhoMax s.alpha s.h s.w fuel s.rho none with
    | error x => rw [i] at e; exact absurd e (by simp [bind, Except.bind])
    | ok q =>
      obtain ⟨r, nw⟩ := q
      rw [i] at e
      cases nw with
      | none => exact absurd e (by simp [bind, Except.bind, throw, throwThe, MonadExceptOf.throw])
      | some q =>
        obtain ⟨w, h⟩ := q
        have hq := inner_new i (by simp) _ rfl
        simp only [bind, Except.bind] at e
        split at e
        · simp only [pure, Except.pure, Except.ok.injEq] at e
          rw [← e]
          exact ⟨hq.2, congrArg some hq.1⟩
        · rcases Nat.eq_zero_or_pos k with rfl | kp
          · simp only [outer, pure, Except.pure, Except.ok.injEq] at e
            rw [← e]
            exact ⟨hq.2, congrArg some hq.1⟩
          · exact ih e kp.ne'

/-- If weights of size at least `τ` have a cycle, the constraint exceeds one of finitely many bounds. -/
theorem threshold_acyclic (hd : 0 < d) {τ tol : K} (hτ : 0 < τ)
    (bound : ∀ k, 1 ≤ k → k ≤ d → tol < (d.choose k : K) * (τ ^ 2 / d) ^ k)
    {W : Matrix (Fin d) (Fin d) K} (h : (hW W).1 ≤ tol) : Acyclic fun i j => threshold τ W i j ≠ 0 := by
  intro a ha
  obtain ⟨k, v, hk, e, hv⟩ := short_cycle ha
  have hA : ∀ i j, 0 ≤ had W W i j := fun i j => mul_self_nonneg _
  have := hOf_ge hd.ne' hA (c := τ ^ 2) (by positivity) hk e (fun t ht => by
    have q := hv t ht
    unfold threshold at q
    split at q
    · exact absurd rfl q
    · rename_i q'
      push Not at q'
      unfold had
      rw [← abs_mul_abs_self]
      nlinarith)
  rw [hW_fst] at h
  exact absurd (lt_of_lt_of_le (bound (k + 1) (by omega) hk) this) (not_lt.2 h)

/-- C59: the loop ends and returns a matrix, for every optimiser, once the starting penalty 1 is below its maximum. -/
theorem c59_terminates [Archimedean K] (p : Params K) (hp : 1 < p.rhoMax) :
    ∃ fuel, ∀ fuel' ≥ fuel, ∀ minim : K → K → Doubled K d → Doubled K d, ∃ W, notearsLinear fuel' minim p = .ok W := by
  obtain ⟨N, hN⟩ := pow_unbounded_of_one_lt p.rhoMax (by norm_num : (1 : K) < 10)
  refine ⟨N, fun f hf minim => ?_⟩
  have h10 : p.rhoMax ≤ 10 ^ f := hN.le.trans (pow_le_pow_right₀ (by norm_num) hf)
  obtain ⟨s, hs⟩ := outer_total (minim := minim) (k := p.maxIter) (s := ⟨(fun _ _ => 0, fun _ _ => 0), 1, 0, none⟩) h10 le_rfl hp
  exact ⟨_, by unfold notearsLinear; rw [hs]; rfl⟩

omit [IsStrictOrderedRing K] in
/-- C59: with a maximum of at most 1 the optimiser is never called and the update of `alpha` raises. -/
theorem c59_no_call (fuel : Nat) (minim : K → K → Doubled K d → Doubled K d) (p : Params K) (hp : p.rhoMax ≤ 1)
    (hi : 0 < p.maxIter) : notearsLinear fuel minim p = .error .type := by
  obtain ⟨k, hk⟩ := Nat.exists_eq_succ_of_ne_zero hi.ne'
  unfold notearsLinear
  rw [hk, outer]
  cases fuel <;> unfold inner <;> simp only <;> rw [if_neg (not_lt.2 hp)] <;> rfl

/-- The parameters of the signature (linear.py L10). -/
def defaults : Params ℚ := ⟨100, 1 / 10 ^ 8, 10 ^ 16, 3 / 10⟩

example : 1 < defaults.rhoMax := by decide +kernel
example : notearsLinear 0 (fun _ _ w => w) ({ defaults with rhoMax := 1 }) = (.error .type : Except Err (Matrix (Fin 2) (Fin 2) ℚ)) :=
  c59_no_call _ _ _ le_rfl (by decide)

/-- C59, part: entries are zero or at least the threshold; the result is the thresholded last output of the optimiser (the zero
matrix if there was no round); and it is a DAG if the constraint was met up to a tolerance below the bound. Missing: the
docstring's "estimated DAG" without the bound, which is false (`c59_false`). -/
theorem c59_dag_partial (hd : 0 < d) (fuel : Nat) (minim : K → K → Doubled K d → Doubled K d) (p : Params K)
    (hτ : 0 < p.wThreshold) {W : Matrix (Fin d) (Fin d) K} (e : notearsLinear fuel minim p = .ok W) :
    (∀ i j, W i j = 0 ∨ p.wThreshold ≤ |W i j|) ∧
    ∃ w : Doubled K d, ((p.maxIter = 0 ∧ w = (fun _ _ => 0, fun _ _ => 0)) ∨ ∃ r a u, w = minim r a u) ∧
      (∀ i j, W i j = if |w.1 i j - w.2 i j| < p.wThreshold then 0 else w.1 i j - w.2 i j) ∧
      ((hW fun i j => w.1 i j - w.2 i j).1 ≤ p.hTol →
        (∀ k, 1 ≤ k → k ≤ d → p.hTol < (d.choose k : K) * (p.wThreshold ^ 2 / d) ^ k) →
        Acyclic fun i j => W i j ≠ 0) := by
  unfold notearsLinear at e
  cases o : outer fuel minim p p.maxIter ⟨(fun _ _ => 0, fun _ _ => 0), 1, 0, none⟩ with
  | error x => rw [o] at e; exact absurd e (by simp [bind, Except.bind])
  | ok s =>
    rw [o] at e
    simp only [bind, Except.bind, pure, Except.pure, Except.ok.injEq] at e
    subst e
    refine ⟨fun i j => ?_, s.w, ?_, fun i j => rfl, fun h b => threshold_acyclic hd hτ b h⟩
    · unfold threshold
      split
      · exact .inl rfl
      · rename_i q; exact .inr (not_lt.1 q)
    · rcases Nat.eq_zero_or_pos p.maxIter with h0 | h0
      · rw [h0] at o
        simp only [outer, pure, Except.pure, Except.ok.injEq] at o
        subst o; exact .inl ⟨h0, rfl⟩
      · exact .inr (outer_end o h0.ne').1

/-- C59, part: if every call of the optimiser meets the constraint up to the tolerance, the result is a DAG under the bound. -/
theorem c59_feasible_partial (hd : 0 < d) (fuel : Nat) (minim : K → K → Doubled K d → Doubled K d) (p : Params K)
    (hτ : 0 < p.wThreshold) (hm : ∀ r a u, (hW fun i j => (minim r a u).1 i j - (minim r a u).2 i j).1 ≤ p.hTol)
    (bound : ∀ k, 1 ≤ k → k ≤ d → p.hTol < (d.choose k : K) * (p.wThreshold ^ 2 / d) ^ k)
    {W : Matrix (Fin d) (Fin d) K} (e : notearsLinear fuel minim p = .ok W) : Acyclic fun i j => W i j ≠ 0 := by
  obtain ⟨-, w, hw, he, hac⟩ := c59_dag_partial hd fuel minim p hτ e
  rcases hw with ⟨-, rfl⟩ | ⟨r, a, u, rfl⟩
  · intro a ha
    obtain ⟨b, hb, -⟩ := Relation.TransGen.head'_iff.1 ha
    exact hb (by rw [he]; simp)
  · exact hac (hm r a u) bound

/-- The bound holds for the default tolerance and threshold with up to four variables. -/
theorem c59_bound_small {d : Nat} (hd : d ≤ 4) (k : Nat) (h1 : 1 ≤ k) (h2 : k ≤ d) :
    defaults.hTol < (d.choose k : ℚ) * (defaults.wThreshold ^ 2 / d) ^ k := by
  interval_cases d <;> interval_cases k <;> norm_num [defaults, Nat.choose]

/-- A check that a run returns a given matrix, for evaluation. -/
def returns {d : Nat} (e : Except Err (Matrix (Fin d) (Fin d) ℚ)) (f : Fin d → Fin d → ℚ) : Bool :=
  match e with
  | .ok W => (List.finRange d).all fun i => (List.finRange d).all fun j => W i j == f i j
  | .error _ => false

theorem returns_eq {d : Nat} {e : Except Err (Matrix (Fin d) (Fin d) ℚ)} {f : Fin d → Fin d → ℚ} (h : returns e f = true) :
    e = .ok f := by
  unfold returns at h
  split at h
  · congr 1
    funext i j
    simpa using List.all_eq_true.1 (List.all_eq_true.1 h i (List.mem_finRange i)) j (List.mem_finRange j)
  · exact absurd h (by simp)

/-- An optimiser that returns a triangle with one weight below the threshold. -/
def triangleMin : ℚ → ℚ → Doubled ℚ 3 → Doubled ℚ 3 := fun _ _ _ =>
  (fun i j => if (i, j) = (0, 1) then 1 else if (i, j) = (2, 1) then 1 / 10 else 0, fun i j => if (i, j) = (0, 2) then 2 else 0)

example : notearsLinear 20 triangleMin defaults =
    .ok (fun i j => if (i, j) = (0, 1) then 1 else if (i, j) = (0, 2) then -2 else 0) := returns_eq (by decide +kernel)
example : ∀ r a u, (hW fun i j => (triangleMin r a u).1 i j - (triangleMin r a u).2 i j).1 ≤ defaults.hTol := by
  intro r a u; change (hW (adj (triangleMin 0 0 (0, 0)))).1 ≤ _; decide +kernel

/-- An optimiser that returns the cycle `0 → 1 → 2 → 3 → 4 → 0` with weights 0.3. -/
def ringMin : ℚ → ℚ → Doubled ℚ 5 → Doubled ℚ 5 := fun _ _ _ => (fun i j => if j = i + 1 then 3 / 10 else 0, fun _ _ => 0)

/-- C59 is false: with the default parameters, a cycle through five variables with weights at the threshold meets the tolerance,
ends the loop in the first round by the test `h <= h_tol`, and is returned. -/
theorem c59_false : ∃ W, notearsLinear 20 ringMin defaults = .ok W ∧ (hW W).1 ≤ defaults.hTol ∧ ¬ Acyclic fun i j => W i j ≠ 0 := by
  refine ⟨fun i j => if j = i + 1 then 3 / 10 else 0, returns_eq (by decide +kernel), by decide +kernel, fun h => ?_⟩
  refine h 0 (.head (b := 1) ?_ (.head (b := 2) ?_ (.head (b := 3) ?_ (.head (b := 4) ?_ (.single ?_))))) <;> decide +kernel

/-- C59 is also false for up to four variables when the loop stops because the penalty has reached its maximum. -/
theorem c59_false_rho : ∃ W, notearsLinear 20 (fun _ _ _ => (fun i j => if i = j then 0 else 1, fun _ _ => 0)) defaults =
    .ok (W : Matrix (Fin 2) (Fin 2) ℚ) ∧ ¬ Acyclic fun i j => W i j ≠ 0 := by
  refine ⟨fun i j => if i = j then 0 else 1, returns_eq (by decide +kernel), fun h => ?_⟩
  refine h 0 (.head (b := 1) ?_ (.single ?_)) <;> decide +kernel

end
end Cdmir
