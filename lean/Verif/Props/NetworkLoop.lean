import Verif.Props.Network
import Verif.Props.Notears

/-! C133-C135: the flat parameter vector, the dual ascent loops of the nonlinear and the entropy-based linear search, and the
regularisers of linear_ent.py. -/

namespace Cdmir.Net
open BigOperators Spec

/-! ### C133: the flat vector -/

section
variable {K : Type}

/-- C133: collecting the parameters and distributing them again changes nothing. -/
theorem c133_params (ps : List (List K)) : distribute (ps.map List.length) (gather ps) = .ok ps := by
  have hl : (gather ps).length = (ps.map List.length).sum := by unfold gather; rw [List.length_flatten]
  obtain ⟨ts, e, hf, hm⟩ := distribute_ok (sizes := ps.map List.length) (v := gather ps) hl.ge
  rw [← hl, List.take_length] at hf
  rw [e, flatten_inj hm hf]

/-- C133: distributing a vector of the right length and collecting again changes nothing, and the parameters keep their sizes. -/
theorem c133_vector (sizes : List Nat) (v : List K) (h : v.length = sizes.sum) :
    ∃ ts, distribute sizes v = .ok ts ∧ gather ts = v ∧ ts.map List.length = sizes := by
  obtain ⟨ts, e, hf, hm⟩ := distribute_ok h.ge
  rw [← h, List.take_length] at hf
  exact ⟨ts, e, hf, hm⟩

/-- C133: a vector that is too short raises; one that is too long is accepted and its surplus dropped, in spite of the assertion. -/
theorem c133_length (sizes : List Nat) (v : List K) :
    (v.length < sizes.sum → distribute sizes v = .error .exception) ∧
      (sizes.sum ≤ v.length → distribute sizes v = distribute sizes (v.take sizes.sum) ∧ ∃ ts, distribute sizes v = .ok ts) := by
  refine ⟨fun h => distributeFrom_short v sizes.sum sizes 0 (by omega) (by omega) h, fun h => ?_⟩
  obtain ⟨ts, e, hf, hm⟩ := distribute_ok h
  obtain ⟨us, e', hf', hm'⟩ := distribute_ok (sizes := sizes) (v := v.take sizes.sum) (by simp [h])
  rw [List.take_take, min_self, ← hf] at hf'
  exact ⟨by rw [e, e', flatten_inj (hm'.trans hm.symm) hf'], ts, e⟩

example : distribute [2, 3] [1, 2, 3, 4, 5] = .ok [[1, 2], [3, 4, 5]] ∧ distribute [2, 3] [1, 2, 3, 4] = (.error .exception : Except Err _) ∧
    distribute [2, 3] [1, 2, 3, 4, 5, 6] = .ok [[1, 2], [3, 4, 5]] := ⟨rfl, rfl, rfl⟩

variable [Field K]

/-- C133: the function handed to the optimiser has the value of the closure at the model with these parameters, and the flat gradient
splits into the gradients of the parameters (zeros where there is none). -/
theorem c133_closure (ps : List (List K)) (loss : List (List K) → K × List (Option (List K)))
    (hg : (loss ps).2.length = ps.length) (hl : ∀ q ∈ ps.zip (loss ps).2, ∀ g, q.2 = some g → g.length = q.1.length) :
    ∃ G, wrapped (ps.map List.length) loss (gather ps) = .ok ((loss ps).1, G) ∧ G.length = (gather ps).length ∧
      distribute (ps.map List.length) G = .ok (List.zipWith (fun (p : List K) g => g.getD (List.replicate p.length 0)) ps (loss ps).2) := by
  set W := List.zipWith (fun (p : List K) (g : Option (List K)) => g.getD (List.replicate p.length 0)) ps (loss ps).2 with hW
  have hm : W.map List.length = ps.map List.length := by
    rw [hW]
    clear hW W
    revert hg hl
    generalize (loss ps).2 = gs
    clear loss
    intro hg hl
    induction ps generalizing gs with
    | nil => simp
    | cons p ps ih =>
      cases gs with
      | nil => simp at hg
      | cons g gs =>
        simp only [List.zipWith_cons_cons, List.map_cons, List.cons.injEq]
        refine ⟨?_, ih gs (by simpa using hg) fun q hq => hl q (List.mem_cons_of_mem _ hq)⟩
        cases g with
        | none => simp
        | some g => exact hl (p, some g) (List.mem_cons_self ..) g rfl
  have hG : gatherGrad (ps.map List.length) (loss ps).2 = gather W := by
    unfold gatherGrad gather
    rw [hW, List.zipWith_map_left]
  refine ⟨gather W, ?_, ?_, ?_⟩
  · unfold wrapped
    rw [c133_params]
    simp only [bind, Except.bind, pure, Except.pure, hG]
  · unfold gather
    rw [List.length_flatten, List.length_flatten, hm]
  · rw [← hm]
    exact c133_params W

/-- The squared norm of the first parameter; the second has no gradient. -/
def exLoss (ps : List (List ℚ)) : ℚ × List (Option (List ℚ)) :=
  (((ps.getD 0 []).map (· ^ 2)).sum, [some ((ps.getD 0 []).map (2 * ·)), none])

example : wrapped [2, 1] exLoss [3, -1, 7] = .ok (10, [6, -2, 0]) := by
  change Except.ok _ = _
  norm_num [exLoss, gatherGrad]

end

/-! ### C134: dual ascent -/

section
variable {K : Type} [Field K] [LinearOrder K] [IsStrictOrderedRing K] {σ : Type}

theorem ascentLoop_total {opt : K → K → σ → σ} {hf : σ → K} {rhoMax alpha : K} {h : Option K} {fuel : Nat} {rho : K} {s : σ} {new : Option K}
    (hr : rhoMax ≤ rho * 10 ^ fuel) :
    ∃ rho' s' new', ascentLoop opt hf rhoMax alpha h fuel rho s new = .ok (rho', s', new') ∧ (∃ k, rho' = rho * 10 ^ k) ∧
      (rho < rhoMax ∨ new.isSome → new'.isSome) := by
  induction fuel generalizing rho s new with
  | zero =>
    unfold ascentLoop
    rw [if_neg (by simpa using hr)]
    exact ⟨rho, s, new, rfl, ⟨0, by simp⟩, fun q => q.resolve_left (by simpa using hr)⟩
  | succ fuel ih =>
    unfold ascentLoop
    split
    · simp only
      split
      · obtain ⟨r, s', nw, e, ⟨k, hk⟩, hs⟩ := ih (rho := rho * 10) (s := opt rho alpha s) (new := some (hf (opt rho alpha s)))
          (by rw [pow_succ'] at hr; linarith)
        exact ⟨r, s', nw, e, ⟨k + 1, by rw [hk]; ring⟩, fun _ => hs (.inr rfl)⟩
      · exact ⟨_, _, _, rfl, ⟨0, by simp⟩, fun _ => rfl⟩
    · rename_i q
      exact ⟨_, _, _, rfl, ⟨0, by simp⟩, fun k => k.resolve_left q⟩

omit [IsStrictOrderedRing K] in
theorem ascentLoop_new {opt : K → K → σ → σ} {hf : σ → K} {rhoMax alpha : K} {h : Option K} {fuel : Nat} {rho rho' : K} {s s' : σ}
    {new new' : Option K} (e : ascentLoop opt hf rhoMax alpha h fuel rho s new = .ok (rho', s', new'))
    (hn : ∀ q, new = some q → q = hf s ∧ ∃ r a u, s = opt r a u) :
    ∀ q, new' = some q → q = hf s' ∧ ∃ r a u, s' = opt r a u := by
  induction fuel generalizing rho s new with
  | zero =>
    unfold ascentLoop at e
    split at e
    · exact absurd e (by simp [throw, throwThe, MonadExceptOf.throw])
    · simp only [pure, Except.pure, Except.ok.injEq, Prod.mk.injEq] at e
      rw [← e.2.1, ← e.2.2]; exact hn
  | succ fuel ih =>
    unfold ascentLoop at e
    split at e
    · simp only at e
      split at e
      · exact ih e fun q hq => by
          simp only [Option.some.injEq] at hq
          exact ⟨hq.symm, _, _, _, rfl⟩
      · simp only [pure, Except.pure, Except.ok.injEq, Prod.mk.injEq] at e
        intro q hq
        rw [← e.2.2, Option.some.injEq] at hq
        rw [← e.2.1]
        exact ⟨hq.symm, _, _, _, rfl⟩
    · simp only [pure, Except.pure, Except.ok.injEq, Prod.mk.injEq] at e
      rw [← e.2.1, ← e.2.2]; exact hn

theorem rounds_total {opt : K → K → K → σ → σ} {hf : σ → K} {hTol rhoMax : K} {on : Bool} {fuel : Nat} (hfu : rhoMax ≤ 10 ^ fuel) :
    ∀ (k : Nat) (beta rho alpha : K) (h : Option K) (s : σ), 1 ≤ rho → rho < rhoMax →
      ∃ r, rounds fuel opt hf hTol rhoMax on k beta rho alpha h s = .ok r
  | 0, _, _, _, _, _, _, _ => ⟨_, rfl⟩
  | k + 1, beta, rho, alpha, h, s, h1, h2 => by
    have hp : (0 : K) < 10 ^ fuel := by positivity
    obtain ⟨r, s', nw, e, ⟨q, hq⟩, hs⟩ := ascentLoop_total (opt := opt (anneal on beta)) (hf := hf) (rhoMax := rhoMax) (alpha := alpha) (h := h)
      (fuel := fuel) (rho := rho) (s := s) (new := none) (by nlinarith)
    obtain ⟨hn, rfl⟩ := Option.isSome_iff_exists.1 (hs (.inl h2))
    rw [rounds]
    simp only [dualAscent, e, bind, Except.bind, pure, Except.pure]
    split
    · exact ⟨_, rfl⟩
    · rename_i hc
      push Not at hc
      refine rounds_total hfu k _ _ _ _ _ ?_ hc.2
      rw [hq]
      have : (1 : K) ≤ 10 ^ q := one_le_pow₀ (by norm_num)
      nlinarith

/-- C134: the search ends for every optimiser, every model and every constraint, once the starting penalty 1 is below its maximum. -/
theorem c134_terminates [Archimedean K] {d : Nat} (p : Notears.Params K) (hp : 1 < p.rhoMax) :
    ∃ fuel, ∀ fuel' ≥ fuel, ∀ (opt : K → K → σ → σ) (hf : σ → K) (adj : σ → Matrix (Fin d) (Fin d) K) (s : σ),
      ∃ W, notearsNonlinear fuel' opt hf adj p s = .ok W := by
  obtain ⟨N, hN⟩ := pow_unbounded_of_one_lt p.rhoMax (by norm_num : (1 : K) < 10)
  refine ⟨N, fun f hf opt h adj s => ?_⟩
  have h10 : p.rhoMax ≤ 10 ^ f := hN.le.trans (pow_le_pow_right₀ (by norm_num) hf)
  obtain ⟨r, hr⟩ := rounds_total (opt := fun _ => opt) (hf := h) (hTol := p.hTol) (on := false) h10 p.maxIter 0 1 0 none s le_rfl hp
  exact ⟨_, by unfold notearsNonlinear; rw [hr]; rfl⟩

omit [IsStrictOrderedRing K] in
/-- C134: with a maximum of at most 1 the optimiser is never called and the update of `alpha` raises. -/
theorem c134_no_call {d : Nat} (fuel : Nat) (opt : K → K → σ → σ) (hf : σ → K) (adj : σ → Matrix (Fin d) (Fin d) K) (p : Notears.Params K)
    (hp : p.rhoMax ≤ 1) (hi : 0 < p.maxIter) (s : σ) : notearsNonlinear fuel opt hf adj p s = .error .type := by
  obtain ⟨k, hk⟩ := Nat.exists_eq_succ_of_ne_zero hi.ne'
  unfold notearsNonlinear
  rw [hk, rounds]
  unfold dualAscent
  cases fuel <;> unfold ascentLoop <;> simp only <;> rw [if_neg (not_lt.2 hp)] <;> rfl

omit [IsStrictOrderedRing K] in
/-- What the rounds leave: the model an optimiser call returned, its constraint, and the reason why they stopped. -/
theorem rounds_end {opt : K → K → K → σ → σ} {hf : σ → K} {hTol rhoMax : K} {on : Bool} {fuel : Nat} :
    ∀ {k : Nat} {beta rho alpha : K} {h : Option K} {s : σ} {r : σ × K × Option K},
      rounds fuel opt hf hTol rhoMax on k beta rho alpha h s = .ok r → k ≠ 0 →
        (∃ b q a u, r.1 = opt b q a u) ∧ r.2.2 = some (hf r.1) := by
  intro k
  induction k with
  | zero => intro _ _ _ _ _ _ _ hk; exact absurd rfl hk
  | succ k ih =>
    intro beta rho alpha h s r e _
    rw [rounds] at e
    unfold dualAscent at e
    cases i : ascentLoop (opt (anneal on beta)) hf rhoMax alpha h fuel rho s none with
    | error x => rw [i] at e; exact absurd e (by simp [bind, Except.bind])
    | ok q =>
      obtain ⟨rho', s', nw⟩ := q
      rw [i] at e
      cases nw with
      | none => exact absurd e (by simp [bind, Except.bind, throw, throwThe, MonadExceptOf.throw])
      | some hn =>
        obtain ⟨rfl, b, a, u, hu⟩ := ascentLoop_new i (by simp) _ rfl
        simp only [bind, Except.bind, pure, Except.pure] at e
        split at e
        · simp only [Except.ok.injEq] at e
          rw [← e]
          exact ⟨⟨_, _, _, _, hu⟩, rfl⟩
        · rcases Nat.eq_zero_or_pos k with rfl | kp
          · simp only [rounds, pure, Except.pure, Except.ok.injEq] at e
            rw [← e]
            exact ⟨⟨_, _, _, _, hu⟩, rfl⟩
          · exact ih e kp.ne'

theorem ascentLoop_quarter {opt : K → K → σ → σ} {hf : σ → K} {rhoMax alpha : K} {h : Option K} {fuel : Nat} {rho rho' : K} {s s' : σ}
    {new new' : Option K} (e : ascentLoop opt hf rhoMax alpha h fuel rho s new = .ok (rho', s', new')) (hr : 0 < rho)
    (hlt : rho' < rhoMax) : rho ≤ rho' ∧ ∃ u, s' = opt rho' alpha u ∧ new' = some (hf s') ∧ ∀ h0, h = some h0 → hf s' ≤ h0 / 4 := by
  induction fuel generalizing rho s new with
  | zero =>
    unfold ascentLoop at e
    split at e
    · exact absurd e (by simp [throw, throwThe, MonadExceptOf.throw])
    · rename_i q
      simp only [pure, Except.pure, Except.ok.injEq, Prod.mk.injEq] at e
      exact absurd (e.1 ▸ hlt) q
  | succ fuel ih =>
    unfold ascentLoop at e
    split at e
    · simp only at e
      split at e
      · obtain ⟨h1, h2⟩ := ih e (by linarith)
        exact ⟨by linarith, h2⟩
      · rename_i q
        simp only [pure, Except.pure, Except.ok.injEq, Prod.mk.injEq] at e
        obtain ⟨rfl, rfl, rfl⟩ := e
        refine ⟨le_rfl, s, rfl, rfl, fun h0 hh => ?_⟩
        rw [hh] at q
        simp only [Notears.slow, decide_eq_true_eq, not_lt, gt_iff_lt] at q
        linarith
    · rename_i q
      simp only [pure, Except.pure, Except.ok.injEq, Prod.mk.injEq] at e
      exact absurd (e.1 ▸ hlt) q

/-- C134: a dual ascent step that returns a penalty below its maximum returns a model that the optimiser found with that penalty and
whose constraint is at most a quarter of the last one; the penalty did not fall, and the multiplier moved by penalty times constraint. -/
theorem c134_quarter (fuel : Nat) (opt : K → K → σ → σ) (hf : σ → K) (rhoMax rho alpha : K) (h : Option K) (s : σ) (hr : 0 < rho)
    {rho' alpha' h' : K} {s' : σ} (e : dualAscent fuel opt hf rhoMax rho alpha h s = .ok (rho', alpha', h', s')) (hlt : rho' < rhoMax) :
    rho ≤ rho' ∧ (∃ u, s' = opt rho' alpha u) ∧ h' = hf s' ∧ alpha' = alpha + rho' * hf s' ∧ ∀ h0, h = some h0 → hf s' ≤ h0 / 4 := by
  unfold dualAscent at e
  cases i : ascentLoop opt hf rhoMax alpha h fuel rho s none with
  | error x => rw [i] at e; exact absurd e (by simp [bind, Except.bind])
  | ok q =>
    obtain ⟨r1, s1, nw⟩ := q
    rw [i] at e
    cases nw with
    | none => exact absurd e (by simp [bind, Except.bind, throw, throwThe, MonadExceptOf.throw])
    | some hn =>
      simp only [bind, Except.bind, pure, Except.pure, Except.ok.injEq, Prod.mk.injEq] at e
      obtain ⟨rfl, rfl, rfl, rfl⟩ := e
      obtain ⟨h1, u, hu, hn', hq⟩ := ascentLoop_quarter i hr hlt
      injection hn' with hn'
      exact ⟨h1, ⟨u, hu⟩, hn', by rw [hn'], hq⟩

/-- A model is one number, its own constraint; the optimiser divides it by the penalty: one tenfold increase is needed. -/
example : dualAscent 20 (fun rho _ (s : ℚ) => s / rho) id (10 ^ 16) 1 0 (some 8) 8 = .ok (10, 8, 4 / 5, 4 / 5) := by decide +kernel

omit [IsStrictOrderedRing K] in
/-- C134: if the first call of the optimiser meets the tolerance, there is no second one. -/
theorem c134_first {d : Nat} (fuel : Nat) (opt : K → K → σ → σ) (hf : σ → K) (adj : σ → Matrix (Fin d) (Fin d) K) (p : Notears.Params K)
    (hi : 0 < p.maxIter) (hp : 1 < p.rhoMax) (s : σ) (hs : hf (opt 1 0 s) ≤ p.hTol) :
    notearsNonlinear (fuel + 1) opt hf adj p s =
      .ok fun i j => if |adj (opt 1 0 s) i j| < p.wThreshold then 0 else adj (opt 1 0 s) i j := by
  obtain ⟨k, hk⟩ := Nat.exists_eq_succ_of_ne_zero hi.ne'
  unfold notearsNonlinear
  rw [hk, rounds]
  unfold dualAscent
  rw [ascentLoop, if_pos hp]
  simp only [Notears.slow, Bool.false_eq_true, if_false, bind, Except.bind, pure, Except.pure]
  rw [if_pos (.inl hs)]
  rfl

end

theorem mlp_had (p : Mlp ℝ) : Notears.had p.adj p.adj = Notears.mlpA p.fc1 := by
  funext i j
  exact Real.mul_self_sqrt (Finset.sum_nonneg fun l _ => mul_self_nonneg _)

/-- C134, part, for `NotearsMLP` of `d` variables: the result is the thresholded matrix of the model the last optimiser call left (of the
given model without rounds); its entries are zero or at least the threshold; and it is a DAG if the constraint was met up to a
tolerance below the bound. Missing: a DAG without the bound, which is false (`c134_false`). -/
theorem c134_dag_partial {d : Nat} (hd : 0 < d) (fuel : Nat) (opt : ℝ → ℝ → {m : Mlp ℝ // m.d = d} → {m : Mlp ℝ // m.d = d})
    (p : Notears.Params ℝ) (hτ : 0 < p.wThreshold) (s : {m : Mlp ℝ // m.d = d}) {W : Matrix (Fin d) (Fin d) ℝ}
    (e : notearsNonlinear fuel opt (fun m => m.1.h) (fun m i j => m.1.adj (i.cast m.2.symm) (j.cast m.2.symm)) p s = .ok W) :
    (∀ i j, W i j = 0 ∨ p.wThreshold ≤ W i j) ∧
    ∃ m : {m : Mlp ℝ // m.d = d}, ((p.maxIter = 0 ∧ m = s) ∨ ∃ r a u, m = opt r a u) ∧
      (∀ i j, W i j = if m.1.adj (i.cast m.2.symm) (j.cast m.2.symm) < p.wThreshold then 0 else m.1.adj (i.cast m.2.symm) (j.cast m.2.symm)) ∧
      (m.1.h ≤ p.hTol → (∀ k, 1 ≤ k → k ≤ d → p.hTol < (d.choose k : ℝ) * (p.wThreshold ^ 2 / d) ^ k) → Acyclic fun i j => W i j ≠ 0) := by
  unfold notearsNonlinear at e
  cases o : rounds fuel (fun _ => opt) (fun m => m.1.h) p.hTol p.rhoMax false p.maxIter 0 1 0 none s with
  | error x => rw [o] at e; exact absurd e (by simp [bind, Except.bind])
  | ok r =>
    rw [o] at e
    simp only [bind, Except.bind, pure, Except.pure, Except.ok.injEq] at e
    have habs : ∀ i j, |r.1.1.adj i j| = r.1.1.adj i j := fun i j => abs_of_nonneg (Real.sqrt_nonneg _)
    have hW : ∀ i j, W i j = if r.1.1.adj (i.cast r.1.2.symm) (j.cast r.1.2.symm) < p.wThreshold then 0
        else r.1.1.adj (i.cast r.1.2.symm) (j.cast r.1.2.symm) := by
      intro i j
      rw [← e]
      unfold Notears.threshold
      rw [habs]
    refine ⟨fun i j => ?_, r.1, ?_, hW, fun h b => ?_⟩
    · rw [hW]
      split
      · exact .inl rfl
      · rename_i q; exact .inr (not_lt.1 q)
    · rcases Nat.eq_zero_or_pos p.maxIter with h0 | h0
      · rw [h0] at o
        simp only [rounds, pure, Except.pure, Except.ok.injEq] at o
        rw [← o]; exact .inl ⟨h0, rfl⟩
      · obtain ⟨⟨_, a, b, u, hu⟩, -⟩ := rounds_end o h0.ne'
        exact .inr ⟨_, _, _, hu⟩
    · clear o
      obtain ⟨⟨m, hm⟩, x⟩ := r
      dsimp only at *
      subst hm
      rw [← e]
      refine threshold_acyclic hd hτ b (W := m.adj) ?_
      rw [Notears.hW_fst, mlp_had]
      exact h

/-- The constraint over the rationals and over the reals. -/
theorem hOf_cast {d : Nat} (hd : d ≠ 0) (A : Matrix (Fin d) (Fin d) ℚ) : Notears.hOf (A.map (Rat.cast : ℚ → ℝ)) = ((Notears.hOf A : ℚ) : ℝ) := by
  rw [Notears.hOf_trace hd, Notears.hOf_trace hd]
  have e : Notears.stepMat (A.map (Rat.cast : ℚ → ℝ)) = (Rat.castHom ℝ).mapMatrix (Notears.stepMat A) := by
    funext i j
    simp only [Notears.stepMat, RingHom.mapMatrix_apply, Matrix.map_apply, Rat.coe_castHom]
    push_cast
    split <;> simp
  rw [e, ← map_pow]
  simp [Matrix.trace]

/-- A network of five variables with one hidden unit each, in a ring: variable `i` enters that of `i + 1` with weight 0.3. -/
noncomputable def ringMlp : Mlp ℝ :=
  ⟨5, 1, [1], [0, 0, 0, 0, 3 / 10, 3 / 10, 0, 0, 0, 0, 0, 3 / 10, 0, 0, 0, 0, 0, 3 / 10, 0, 0, 0, 0, 0, 3 / 10, 0], [], List.replicate 25 0, [],
    [([1, 1, 1, 1, 1], [])]⟩

/-- The squares of its weights, over the rationals. -/
def ringA : Matrix (Fin 5) (Fin 5) ℚ := fun i j => if (j : Nat) = (i + 1) % 5 then 9 / 100 else 0

theorem ringMlp_a (i j : Fin 5) : Notears.mlpA ringMlp.fc1 i j = ((ringA i j : ℚ) : ℝ) := by
  unfold Notears.mlpA Mlp.fc1
  change (∑ l : Fin 1, _) = _
  rw [Fin.sum_univ_one]
  fin_cases i <;> fin_cases j <;> norm_num [ringMlp, ringA, at']

theorem ringMlp_adj (i j : Fin 5) : ringMlp.adj i j = if (j : Nat) = (i + 1) % 5 then 3 / 10 else 0 := by
  unfold Mlp.adj
  rw [ringMlp_a]
  unfold ringA
  split
  · rw [show (((9 / 100 : ℚ)) : ℝ) = (3 / 10) ^ 2 by norm_num, Real.sqrt_sq (by norm_num)]
  · simp

/-- The default parameters (nonlinear.py L198-201). -/
noncomputable def netDefaults : Notears.Params ℝ := ⟨10, 1 / 10 ^ 8, 10 ^ 16, 3 / 10⟩

theorem ringMlp_h : ringMlp.h ≤ netDefaults.hTol := by
  unfold Mlp.h
  rw [show Notears.mlpA ringMlp.fc1 = ringA.map (Rat.cast : ℚ → ℝ) from by funext i j; exact ringMlp_a i j]
  have h : Notears.hOf ringA ≤ 1 / 10 ^ 8 := by decide +kernel
  refine (hOf_cast (by decide) ringA).trans_le ?_
  have h2 : ((Notears.hOf ringA : ℚ) : ℝ) ≤ ((1 / 10 ^ 8 : ℚ) : ℝ) := Rat.cast_le.2 h
  refine h2.trans_eq ?_
  norm_num [netDefaults]

/-- C134 is false: with the default parameters, a network of five variables in a ring with weights at the threshold meets the tolerance,
ends the search after one call of the optimiser, and its matrix, a cycle, is returned. -/
theorem c134_false : ∃ (opt : ℝ → ℝ → {m : Mlp ℝ // m.d = 5} → {m : Mlp ℝ // m.d = 5}) (s : {m : Mlp ℝ // m.d = 5})
    (W : Matrix (Fin 5) (Fin 5) ℝ),
    notearsNonlinear 1 opt (fun m => m.1.h) (fun m i j => m.1.adj (i.cast m.2.symm) (j.cast m.2.symm)) netDefaults s = .ok W ∧
      (opt 1 0 s).1.h ≤ netDefaults.hTol ∧ ¬ Acyclic fun i j => W i j ≠ 0 := by
  refine ⟨fun _ _ _ => ⟨ringMlp, rfl⟩, ⟨ringMlp, rfl⟩, _,
    c134_first 0 _ _ _ netDefaults (by simp [netDefaults]) (by norm_num [netDefaults]) _ ringMlp_h, ringMlp_h, fun h => ?_⟩
  have hne : ∀ i j : Fin 5, (j : Nat) = (i + 1) % 5 → (if |ringMlp.adj i j| < netDefaults.wThreshold then 0 else ringMlp.adj i j) ≠ 0 := by
    intro i j hj
    rw [ringMlp_adj, if_pos hj]
    norm_num [netDefaults]
  exact h (0 : Fin 5) (.head (b := (1 : Fin 5)) (hne 0 1 rfl) (.head (b := (2 : Fin 5)) (hne 1 2 rfl) (.head (b := (3 : Fin 5)) (hne 2 3 rfl)
    (.head (b := (4 : Fin 5)) (hne 3 4 rfl) (.single (hne 4 0 rfl))))))

/-- The squares of the weights of the network of C131. -/
def exA : Matrix (Fin 2) (Fin 2) ℚ := fun i j => if i = 0 ∧ j = 1 then 4 else 0

theorem exMlp_a (i j : Fin 2) : Notears.mlpA (exMlp 1).fc1 i j = ((exA i j : ℚ) : ℝ) := by
  unfold Notears.mlpA Mlp.fc1
  change (∑ l : Fin 1, _) = _
  rw [Fin.sum_univ_one]
  fin_cases i <;> fin_cases j <;> norm_num [exMlp, exA, at']

theorem exMlp_h : (exMlp 1).h ≤ netDefaults.hTol := by
  unfold Mlp.h
  have e : Notears.mlpA (exMlp 1).fc1 = exA.map (Rat.cast : ℚ → ℝ) := by funext i j; exact exMlp_a i j
  rw [e]
  have h0 : Notears.hOf exA = 0 := by decide +kernel
  refine (hOf_cast (by decide) exA).trans_le ?_
  rw [h0]
  norm_num [netDefaults]

/-- That network meets the constraint, and one call of an optimiser that finds it returns its matrix. -/
example : notearsNonlinear 1 (fun _ _ _ => ⟨exMlp 1, rfl⟩) (fun m : {m : Mlp ℝ // m.d = 2} => m.1.h)
      (fun m i j => m.1.adj (i.cast m.2.symm) (j.cast m.2.symm)) netDefaults ⟨exMlp 1, rfl⟩ =
      .ok fun i j => if i = 0 ∧ j = 1 then 2 else 0 := by
  have key := c134_first (d := 2) 0 (fun _ _ _ => (⟨exMlp 1, rfl⟩ : {m : Mlp ℝ // m.d = 2})) (fun m => m.1.h)
    (fun m i j => m.1.adj (i.cast m.2.symm) (j.cast m.2.symm)) netDefaults (by simp [netDefaults]) (by norm_num [netDefaults])
    ⟨exMlp 1, rfl⟩ exMlp_h
  rw [key]
  congr 1
  funext i j
  change (if |(exMlp 1).adj i j| < netDefaults.wThreshold then 0 else (exMlp 1).adj i j) = _
  rw [exMlp_adj]
  split <;> norm_num [netDefaults]

/-- The bound of `c134_dag_partial` holds with the defaults for up to four variables. -/
theorem c134_bound_small {d : Nat} (hd : d ≤ 4) (k : Nat) (h1 : 1 ≤ k) (h2 : k ≤ d) :
    netDefaults.hTol < (d.choose k : ℝ) * (netDefaults.wThreshold ^ 2 / d) ^ k := by
  interval_cases d <;> interval_cases k <;> norm_num [netDefaults, Nat.choose]

/-! ### C135: the regularisers of linear_ent.py -/

theorem lin_test (d : Nat) (a b : List ℝ) (i j : Fin d) : (⟨d, a, b⟩ : Lin ℝ).test i j = at' a (j * d + i) - at' b (j * d + i) := rfl

/-- C135: the estimate is the data times the weight matrix that is returned. -/
theorem c135_forward {n : Nat} (p : Lin ℝ) (X : Matrix (Fin n) (Fin p.d) ℝ) : (p.forward X).1 = X * p.test := by
  funext r j
  unfold Lin.forward Lin.test
  simp only [Matrix.mul_apply, Matrix.transpose_apply, Lin.train, mul_sub, Finset.sum_sub_distrib]

/-- C135: within the bounds no variable has an edge to itself. -/
theorem c135_own (d : Nat) {a b : List ℝ} (ha : Box (linBounds d) a) (hb : Box (linBounds d) b) (j : Fin d) : (⟨d, a, b⟩ : Lin ℝ).test j j = 0 := by
  have e1 := box_get ha (c132_linear_layout j.isLt j.isLt)
  have e2 := box_get hb (c132_linear_layout j.isLt j.isLt)
  rw [if_pos rfl] at e1 e2
  rw [lin_test, within_fixed e1, within_fixed e2, sub_zero]

/-- C135, expected: `lambda2` weighs the size of the parameters. It does not: what is stored is the mean square of the data, so the
objective of any two sets of weights differs by the same amount whatever `lambda2` is. -/
theorem c135_l2_false {n d : Nat} (a b a' b' : List ℝ) (ent : Matrix (Fin n) (Fin d) ℝ → Matrix (Fin n) (Fin d) ℝ → ℝ)
    (X : Matrix (Fin n) (Fin d) ℝ) (lambda1 lambda2 lambda2' rho alpha beta gama : ℝ) :
    (⟨d, a, b⟩ : Lin ℝ).objective ent X lambda1 lambda2 rho alpha beta gama - (⟨d, a', b'⟩ : Lin ℝ).objective ent X lambda1 lambda2 rho alpha beta gama =
      (⟨d, a, b⟩ : Lin ℝ).objective ent X lambda1 lambda2' rho alpha beta gama -
        (⟨d, a', b'⟩ : Lin ℝ).objective ent X lambda1 lambda2' rho alpha beta gama := by
  unfold Lin.objective Lin.forward
  ring

/-- C135, expected: the penalty `L1` of `train_dam` is a norm. It is the plain sum: negative weights are rewarded without limit, also
within the bounds of the parameters. `abs_L1`, which the other loops use, is at least its absolute value. -/
theorem c135_l1_false (B : ℝ) : ∃ p : Lin ℝ, Box (linBounds p.d) p.posW ∧ Box (linBounds p.d) p.negW ∧ p.l1 < B := by
  refine ⟨⟨2, [0, 0, 0, 0], [0, |B| + 1, 0, 0]⟩, ?_, ?_, ?_⟩
  · norm_num [Box, linBounds, List.range_succ, Within]
    simp
  · norm_num [Box, linBounds, List.range_succ, Within]
    have := abs_nonneg B
    simp; linarith
  · have e : (⟨2, [0, 0, 0, 0], [0, |B| + 1, 0, 0]⟩ : Lin ℝ).l1 = -(|B| + 1) := by
      unfold Lin.l1 Notears.total Lin.train
      change (∑ j : Fin 2, ∑ i : Fin 2, _) = _
      simp [Fin.sum_univ_two, at']
    rw [e]
    have := neg_abs_le B
    linarith

theorem c135_abs_l1 (p : Lin ℝ) : |p.l1| ≤ p.absL1 ∧ (p.absL1 = 0 ↔ ∀ i j, p.test i j = 0) := by
  constructor
  · unfold Lin.l1 Lin.absL1 Notears.total
    refine (Finset.abs_sum_le_sum_abs _ _).trans (Finset.sum_le_sum fun j _ => Finset.abs_sum_le_sum_abs _ _)
  · unfold Lin.absL1 Lin.test
    rw [Finset.sum_eq_zero_iff_of_nonneg fun j _ => Finset.sum_nonneg fun i _ => abs_nonneg _]
    constructor
    · intro h i j
      have := (Finset.sum_eq_zero_iff_of_nonneg fun i _ => abs_nonneg _).1 (h j (Finset.mem_univ j)) i (Finset.mem_univ i)
      exact abs_eq_zero.1 this
    · intro h j _
      exact Finset.sum_eq_zero fun i _ => abs_eq_zero.2 (h i j)

/-- C135, expected from the comment: annealing takes `beta` to zero. In exact arithmetic a positive `beta` stays positive, and stops
changing once it is at most a tenth. -/
theorem c135_anneal {beta : ℝ} (hb : 0 < beta) :
    (∀ k, 0 < (anneal true)^[k] beta) ∧ ∃ k, (anneal true)^[k] beta ≤ 1 / 10 ∧ ∀ m ≥ k, (anneal true)^[m] beta = (anneal true)^[k] beta := by
  have step : ∀ b : ℝ, 0 < b → 0 < anneal true b := by
    intro b h
    unfold anneal
    simp only [if_true]
    split <;> linarith
  have hp : ∀ k, 0 < (anneal true)^[k] beta := by
    intro k
    induction k with
    | zero => exact hb
    | succ k ih => rw [Function.iterate_succ_apply']; exact step _ ih
  refine ⟨hp, ?_⟩
  have hle : ∃ k, (anneal true)^[k] beta ≤ 1 / 10 := by
    by_contra h
    push Not at h
    have this_eq : ∀ k : Nat, (anneal true)^[k] beta = beta - k / 10 := by
      intro k
      induction k with
      | zero => simp
      | succ k ih =>
        rw [Function.iterate_succ_apply', anneal, if_pos rfl, if_pos (h k), ih]
        push_cast; ring
    obtain ⟨n, hn⟩ := exists_nat_gt (10 * beta)
    have := hp n
    rw [this_eq n] at this
    linarith
  obtain ⟨k, hk⟩ := hle
  refine ⟨k, hk, fun m hm => ?_⟩
  induction m, hm using Nat.le_induction with
  | base => rfl
  | succ m _ ih => rw [Function.iterate_succ_apply', ih, anneal, if_pos rfl, if_neg (not_lt.2 hk)]

/-- From 1, nine steps; the tenth changes nothing. -/
example : (anneal true)^[9] (1 : ℚ) = 1 / 10 ∧ (anneal true)^[10] (1 : ℚ) = 1 / 10 := by decide +kernel

end Cdmir.Net
