import Verif.Props.SHP
import Verif.Props.SHPEm
import Mathlib.Tactic.IntervalCases

/-! C171: what Hill_Climb of SHP.py finds: types that follow no other, an edge, and the unit of time. -/

namespace Cdmir
open BigOperators Spec SHP SHPEm

namespace SHPFind

section
variable {m n : Nat}

/-- A property that every update establishes holds of the result of a fit, because every fit makes at least one. -/
theorem fitLoop_inv {D : Data ℝ m n} {dt : ℝ} (hdt : D.dt = some dt) {S : Fin m → Fin n → ℝ} {I : Fin n → ℝ} {i : Fin n} {pa : List (Fin n)}
    {P Q : (Fin n → ℝ) → ℝ → Prop}
    (step : ∀ alpha mu, P alpha mu → P (alphaStep D S I i pa dt alpha mu) (muStep D S i alpha mu) ∧
      Q (alphaStep D S I i pa dt alpha mu) (muStep D S i alpha mu))
    {fuel : Nat} {Li : Option ℝ} {alpha : Fin n → ℝ} {mu : ℝ} (p : P alpha mu) (q : Q alpha mu) {f : Fit ℝ n}
    (h : fitLoop D Real.log S I i pa fuel Li alpha mu = .ok f) :
    P f.alpha f.mu ∧ Q f.alpha f.mu ∧ f.lik = logLik D Real.log S i f.alpha f.mu := by
  induction fuel generalizing Li alpha mu with
  | zero => simp [fitLoop, throw, throwThe, MonadExceptOf.throw] at h
  | succ fuel ih =>
    rcases fitLoop_cases h with rfl | ⟨h, -⟩ | ⟨dt', h', h⟩
    · exact ⟨p, q, rfl⟩
    · rw [hdt] at h
      cases h
    · rw [hdt] at h'
      cases h'
      exact ih (step _ _ p).1 (step _ _ p).2 h

/-- The first turn of a fit always goes on to an update. -/
theorem fit_first {D : Data ℝ m n} {dt : ℝ} (hdt : D.dt = some dt) {kappa : ℝ → ℝ} {fuel : Nat} {i : Fin n} {pa : List (Fin n)}
    {a : Fin n → ℝ} {f : Fit ℝ n} (h : fit D Real.log kappa fuel i pa a = .ok f) :
    ∃ k L, fitLoop D Real.log (influence D kappa) (integral D kappa) i pa k (some L)
      (alphaStep D (influence D kappa) (integral D kappa) i pa dt a 1) (muStep D (influence D kappa) i a 1) = .ok f := by
  unfold fit at h
  cases fuel with
  | zero => simp [fitLoop, throw, throwThe, MonadExceptOf.throw] at h
  | succ k =>
    rw [fitLoop_first] at h
    unfold next at h
    rw [hdt] at h
    exact ⟨k, _, h⟩

theorem fit_inv {D : Data ℝ m n} {dt : ℝ} (hdt : D.dt = some dt) {kappa : ℝ → ℝ} {i : Fin n} {pa : List (Fin n)}
    {P Q : (Fin n → ℝ) → ℝ → Prop}
    (step : ∀ alpha mu, P alpha mu → P (alphaStep D (influence D kappa) (integral D kappa) i pa dt alpha mu) (muStep D (influence D kappa) i alpha mu) ∧
      Q (alphaStep D (influence D kappa) (integral D kappa) i pa dt alpha mu) (muStep D (influence D kappa) i alpha mu))
    {fuel : Nat} {a : Fin n → ℝ} (p : P a 1) {f : Fit ℝ n} (h : fit D Real.log kappa fuel i pa a = .ok f) :
    P f.alpha f.mu ∧ Q f.alpha f.mu ∧ f.lik = logLik D Real.log (influence D kappa) i f.alpha f.mu := by
  obtain ⟨k, L, h⟩ := fit_first hdt h
  exact fitLoop_inv hdt step (step _ _ p).1 (step _ _ p).2 h

/-- The highest likelihood without parents. -/
noncomputable def base (D : Data ℝ m n) (i : Fin n) : ℝ := (∑ t, D.X t i) * Real.log ((∑ t, D.X t i) / D.T) - ∑ t, D.X t i

theorem logLik_zero (D : Data ℝ m n) (S : Fin m → Fin n → ℝ) (i : Fin n) {alpha : Fin n → ℝ} (ha : ∀ j, alpha j = 0) (mu : ℝ) :
    logLik D Real.log S i alpha mu = (∑ t, D.X t i) * Real.log mu - mu * D.T := by
  unfold logLik rate
  simp only [ha, mul_zero, Finset.sum_const_zero, zero_add, ← Finset.sum_mul]
  ring

/-- No base rate has a higher likelihood than `base`. -/
theorem le_base {D : Data ℝ m n} (v : Valid D) (i : Fin n) {mu : ℝ} (hm : 0 < mu) : (∑ t, D.X t i) * Real.log mu - mu * D.T ≤ base D i := by
  have hx := v.occurs i
  have hT := v.T
  have hpos : 0 < (∑ t, D.X t i) / D.T := div_pos hx hT
  have h1 := Real.log_le_sub_one_of_pos (div_pos hm hpos)
  rw [Real.log_div hm.ne' hpos.ne'] at h1
  have h2 := mul_le_mul_of_nonneg_left h1 hx.le
  have h3 : (∑ t, D.X t i) * (mu / ((∑ t, D.X t i) / D.T) - 1) = D.T * mu - ∑ t, D.X t i := by field_simp
  rw [h3] at h2
  unfold base
  linarith

/-- A type that no parent influences is fitted as if it had none, whatever the draws. -/
theorem fit_root {D : Data ℝ m n} (v : Valid D) {dt : ℝ} (hdt : D.dt = some dt) {i : Fin n} {pa : List (Fin n)}
    (hr : ∀ j ∈ pa, ∀ t, D.X t i ≠ 0 → influence D (kernel D) t j = 0) {fuel : Nat} {a : Fin n → ℝ} (ha : ∀ j, 0 ≤ a j)
    (hz : ∀ j ∉ pa, a j = 0) {f : Fit ℝ n} (h : fit D Real.log (kernel D) fuel i pa a = .ok f) :
    (∀ j, f.alpha j = 0) ∧ f.mu = (∑ t, D.X t i) / D.T ∧ f.lik = base D i := by
  have hS : ∀ t j, 0 ≤ influence D (kernel D) t j := influence_nonneg v.nonneg _
  obtain ⟨-, ⟨q1, q2⟩, q3⟩ := fit_inv hdt (P := fun alpha mu => (∀ j, 0 ≤ alpha j) ∧ (∀ j ∉ pa, alpha j = 0) ∧ 0 < mu)
    (Q := fun alpha mu => (∀ j, alpha j = 0) ∧ mu = (∑ t, D.X t i) / D.T) (fun alpha mu ⟨p1, p2, p3⟩ => by
      refine ⟨⟨alphaStep_nonneg v hS (integral_nonneg v) i pa (v.dt dt hdt) p1 p3, fun j hj => alphaStep_zero p2 hj, muStep_pos v hS i p1 p3⟩, ?_, ?_⟩
      · intro j
        by_cases hj : j ∈ pa
        · unfold alphaStep
          simp only [if_pos hj]
          split
          · rfl
          · rw [Finset.sum_eq_zero, zero_div]
            intro t _
            by_cases hx : D.X t i = 0
            · rw [hx, mul_zero]
            · rw [hr j hj t hx]
              simp
        · exact alphaStep_zero p2 hj
      · unfold muStep
        congr 1
        refine Finset.sum_congr rfl fun t _ => ?_
        by_cases hx : D.X t i = 0
        · rw [hx, mul_zero]
        · have : rate (influence D (kernel D)) alpha mu t = mu := by
            unfold rate
            rw [Finset.sum_eq_zero, zero_add]
            intro j _
            by_cases hj : j ∈ pa
            · rw [hr j hj t hx, zero_mul]
            · rw [p2 j hj, mul_zero]
          rw [this, div_self p3.ne', one_mul]) ⟨ha, hz, one_pos⟩ h
  refine ⟨q1, q2, ?_⟩
  rw [q3, logLik_zero D _ i q1, q2]
  unfold base
  rw [div_mul_cancel₀ _ v.T.ne']

/-- No event of type `j` lies, in the same sequence and within the reach of the kernel, before or at the time of an event of type `i`. -/
def Apart (D : Data ℝ m n) (j i : Fin n) : Prop :=
  ∀ s t, s ≤ t → D.seq s = D.seq t → 1 / 10000 ≤ Real.exp (-D.decay * (D.time t - D.time s)) → D.X t i ≠ 0 → D.X s j = 0

theorem influence_apart {D : Data ℝ m n} {i j : Fin n} (h : Apart D j i) (t : Fin m) (hx : D.X t i ≠ 0) : influence D (kernel D) t j = 0 := by
  unfold influence
  rw [← Fin.sum_univ_def]
  refine Finset.sum_eq_zero fun s _ => ?_
  rw [reached_sum D (kernel D) s t (D.X s j) m s (by omega)]
  split
  · rename_i k
    rw [h s t k.1 (k.2 t k.1 le_rfl).1.symm (k.2 t k.1 le_rfl).2 hx, zero_mul]
  · rfl

/-- One edge less. -/
theorem card_erase {E N : Edges n} {i j : Fin n} (hE : E j i = true) (hN : ∀ a b, N a b = if a = j ∧ b = i then false else E a b) :
    (Finset.univ.filter fun p : Fin n × Fin n => E p.2 p.1 = true).card =
      (Finset.univ.filter fun p : Fin n × Fin n => N p.2 p.1 = true).card + 1 := by
  have : (Finset.univ.filter fun p : Fin n × Fin n => E p.2 p.1 = true) =
      insert (i, j) (Finset.univ.filter fun p : Fin n × Fin n => N p.2 p.1 = true) := by
    ext ⟨b, a⟩
    simp only [Finset.mem_filter, Finset.mem_univ, true_and, Finset.mem_insert, Prod.mk.injEq, hN]
    by_cases h : a = j ∧ b = i
    · obtain ⟨rfl, rfl⟩ := h
      simp [hE]
    · rw [if_neg h]
      constructor
      · exact Or.inr
      · rintro (k | k)
        · exact absurd ⟨k.2, k.1⟩ h
        · exact k
  rw [this, Finset.card_insert_of_notMem (by simp [hN])]

/-- **C171, roots.** An event type that follows no other gets no parent, its coefficients are 0 and its base rate is the number of its events over
the time, whatever the draws and the acyclic matrix the search starts from. -/
theorem c171_root {D : Data ℝ m n} (v : Valid D) {dt : ℝ} (hdt : D.dt = some dt) {acyclic : Edges n → Bool}
    (hac : ∀ E, acyclic E = true ↔ Acyclic fun a b => a ≠ b ∧ E a b = true) {draw : Nat → Fin n → Fin n → ℝ} (hd : ∀ t j i, 0 ≤ draw t j i)
    {penalty : Nat → ℝ} {c : ℝ} (hc : 0 < c) (hp : ∀ k, penalty (k + 1) = penalty k + c) {init : Edges n}
    (hi : Acyclic fun a b => init a b = true) {fuel fuel' : Nat} {r : Result ℝ n} {E : Edges n} {o : Obj ℝ n}
    (e : hillClimb (em (fit D Real.log (fun t => Real.exp (-D.decay * t)) fuel) acyclic draw penalty) fuel' init ⟨[], 0⟩ = .ok (r, E, o))
    {i : Fin n} (hr : ∀ j, j ≠ i → Apart D j i) :
    (∀ j, E j i = false ∧ r.alpha j i = 0) ∧ r.mu i = (∑ t, D.X t i) / D.T := by
  obtain ⟨x1, x2, -, rec, x3, x4, -, x5⟩ := c60_result hac e
  have hii : ∀ a, E a a = false := fun a => by
    rw [x1, ← Bool.not_eq_true]
    exact fun k => hi a (Relation.TransGen.single k)
  have acE := x2 (fun a k => hi a (Relation.TransGen.mono (fun _ _ q => q.2) _ _ k))
  obtain ⟨g, g1, g2, g3, g4⟩ := x4 acE
  have root : ∀ c' f, c' i = false → rec i c' = some f → (∀ j, f.alpha j = 0) ∧ f.mu = (∑ t, D.X t i) / D.T ∧ f.lik = base D i := by
    intro c' f h0 hf
    obtain ⟨t, k⟩ := x3 i c' f hf
    refine fit_root v hdt (fun j hj => influence_apart (hr j fun q => ?_)) (fun j => ?_) (fun j hj => ?_) k
    · subst q
      simp [h0] at hj
    · split
      · exact hd _ _ _
      · exact le_rfl
    · rw [if_neg (by simpa using hj)]
  have hg := root (fun a => E a i) _ (hii i) (g1 i)
  have none_ : ∀ j, E j i = false := by
    intro j
    by_contra hE
    rw [Bool.not_eq_false] at hE
    have hji : j ≠ i := fun q => by rw [q, hii] at hE; cases hE
    have hij : E i j = false := by
      rw [← Bool.not_eq_true]
      exact fun k => acE i ((Relation.TransGen.single ⟨hji.symm, k⟩).tail ⟨hji, hE⟩)
    let N : Edges n := fun a b => if a = j ∧ b = i then false else E a b
    obtain ⟨g', L, k1, k2, k3⟩ := x5 N i j hji (fun a b h _ => by simp only [N, if_neg h]) (fun k => by simp [N] at k)
      (fun a k => acE a (Relation.TransGen.mono (fun u w q => ⟨q.1, by
        have := q.2
        simp only [N] at this
        split at this
        · cases this
        · exact this⟩) _ _ k))
    have hlik : ∀ b, (g' b).lik = (g b).lik := by
      intro b
      by_cases hb : b = i
      · subst hb
        rw [hg.2.2, (root (fun a => N a b) _ (by simp [N, hii]) (k1 b)).2.2]
      · have : (fun a => N a b) = fun a => E a b := by
          funext a
          simp only [N]
          rw [if_neg fun q => hb q.2]
        have h1 := k1 b
        rw [this, g1 b] at h1
        rw [Option.some.inj h1]
    rw [g2] at k2
    cases k2
    rw [card_erase (N := N) hE (fun a b => rfl), hp, Finset.sum_congr rfl fun b _ => hlik b] at k3
    linarith
  refine ⟨fun j => ⟨none_ j, ?_⟩, ?_⟩
  · rw [g3, none_ j]
    rfl
  · rw [g4, hg.2.1]

/-- **C171, types that are all apart.** If no event type follows another, the result has no edge. -/
theorem c171_apart {D : Data ℝ m n} (v : Valid D) {dt : ℝ} (hdt : D.dt = some dt) {acyclic : Edges n → Bool}
    (hac : ∀ E, acyclic E = true ↔ Acyclic fun a b => a ≠ b ∧ E a b = true) {draw : Nat → Fin n → Fin n → ℝ} (hd : ∀ t j i, 0 ≤ draw t j i)
    {penalty : Nat → ℝ} {c : ℝ} (hc : 0 < c) (hp : ∀ k, penalty (k + 1) = penalty k + c) {init : Edges n}
    (hi : Acyclic fun a b => init a b = true) {fuel fuel' : Nat} {r : Result ℝ n} {E : Edges n} {o : Obj ℝ n}
    (e : hillClimb (em (fit D Real.log (fun t => Real.exp (-D.decay * t)) fuel) acyclic draw penalty) fuel' init ⟨[], 0⟩ = .ok (r, E, o))
    (hr : ∀ j i, j ≠ i → Apart D j i) : (∀ j i, E j i = false ∧ r.alpha j i = 0) ∧ ∀ i, r.mu i = (∑ t, D.X t i) / D.T :=
  ⟨fun j i => (c171_root v hdt hac hd hc hp hi e fun j => hr j i).1 j, fun i => (c171_root v hdt hac hd hc hp hi e fun j => hr j i).2⟩

/-- The gain in likelihood of one update from the coefficient `a`, where the coefficient costs the number of events of type `j` over the decay. -/
noncomputable def gain (D : Data ℝ m n) (j i : Fin n) (a : ℝ) : ℝ :=
  let s := fun t => influence D (kernel D) t j
  let alpha := (∑ t, D.X t i * (a * s t / (a * s t + 1))) / ((∑ t, D.X t j) / D.decay)
  let mu := (∑ t, D.X t i * (1 / (a * s t + 1))) / D.T
  ∑ t, D.X t i * (Real.log (alpha * s t + mu) - Real.log ((∑ t, D.X t i) / D.T))

/-- A fit with one parent is at least as good as after its first update, where the costs agree. -/
theorem fit_gain {D : Data ℝ m n} (v : Valid D) {dt : ℝ} (hdt : D.dt = some dt) {i j : Fin n}
    (hcost : (∑ t, D.X t j * (1 - Real.exp (-D.decay * (D.last (D.seq t) - D.time t)))) * dt = ∑ t, D.X t j) {fuel : Nat} {a : Fin n → ℝ}
    (ha : 0 ≤ a j) (hz : ∀ k, k ≠ j → a k = 0) {f : Fit ℝ n} (h : fit D Real.log (kernel D) fuel i [j] a = .ok f) :
    base D i + gain D j i (a j) ≤ f.lik := by
  have hS : ∀ t j, 0 ≤ influence D (kernel D) t j := influence_nonneg v.nonneg _
  have ha' : ∀ k, 0 ≤ a k := fun k => by
    by_cases hk : k = j
    · exact hk ▸ ha
    · rw [hz k hk]
  have hz' : ∀ k ∉ [j], a k = 0 := fun k hk => hz k (by simpa using hk)
  obtain ⟨k, L, h⟩ := fit_first hdt h
  have hc' : ∀ k ∈ [j], (∑ t, D.X t k * (1 - Real.exp (-D.decay * (D.last (D.seq t) - D.time t)))) * dt = ∑ t, D.X t k := fun k hk => by
    rw [List.mem_singleton.1 hk]
    exact hcost
  refine le_trans (le_of_eq ?_) (fitLoop_up v hdt hc' (alphaStep_nonneg v hS (integral_nonneg v) i [j] (v.dt dt hdt) ha' one_pos)
    (fun k hk => alphaStep_zero hz' hk) (muStep_pos v hS i ha' one_pos) h)
  have hrate : ∀ t, rate (influence D (kernel D)) a 1 t = a j * influence D (kernel D) t j + 1 := fun t => by
    unfold rate
    rw [Finset.sum_eq_single j (fun b _ hb => by rw [hz b hb, mul_zero]) (fun h => absurd (Finset.mem_univ j) h), mul_comm]
  have hrp : ∀ t, 0 < a j * influence D (kernel D) t j + 1 := fun t => by
    have := mul_nonneg ha (hS t j)
    linarith
  have hlow : integral D (kernel D) j * dt = (∑ t, D.X t j) / D.decay := by
    rw [← hcost]
    unfold integral kernel
    rw [Finset.sum_mul, Finset.sum_mul, Finset.sum_div]
    exact Finset.sum_congr rfl fun t _ => by ring
  have hlp : 0 < (∑ t, D.X t j) / D.decay := div_pos (v.occurs j) v.decay
  set s := fun t => influence D (kernel D) t j with hs
  set al := (∑ t, D.X t i * (a j * s t / (a j * s t + 1))) / ((∑ t, D.X t j) / D.decay) with hal
  set mu := (∑ t, D.X t i * (1 / (a j * s t + 1))) / D.T with hmu
  have e1 : alphaStep D (influence D (kernel D)) (integral D (kernel D)) i [j] dt a 1 = fun k => if k = j then al else 0 := by
    funext k
    by_cases hk : k = j
    · subst hk
      unfold alphaStep
      simp only [List.mem_singleton, if_true, hlow, if_neg hlp.ne', hrate]
      rw [hal]
      congr 1
      exact Finset.sum_congr rfl fun t _ => by ring
    · rw [if_neg hk, alphaStep_zero hz' (by simpa using hk)]
  have e2 : muStep D (influence D (kernel D)) i a 1 = mu := by
    unfold muStep
    rw [hmu]
    simp only [hrate]
    congr 1
    exact Finset.sum_congr rfl fun t _ => by rw [hs]; ring
  rw [e1, e2]
  unfold logLik rate
  have e3 : ∀ t, ∑ k, influence D (kernel D) t k * (if k = j then al else 0) = al * s t := fun t => by
    rw [Finset.sum_eq_single j (fun b _ hb => by rw [if_neg hb, mul_zero]) (fun h => absurd (Finset.mem_univ j) h), if_pos rfl, mul_comm]
  have e4 : ∑ k, (∑ t, 1 / D.decay * D.X t k) * (if k = j then al else 0) = al * ((∑ t, D.X t j) / D.decay) := by
    rw [Finset.sum_eq_single j (fun b _ hb => by rw [if_neg hb, mul_zero]) (fun h => absurd (Finset.mem_univ j) h), if_pos rfl, ← Finset.mul_sum]
    ring
  simp only [e3, e4]
  have e5 : al * ((∑ t, D.X t j) / D.decay) + mu * D.T = ∑ t, D.X t i := by
    rw [hal, hmu, div_mul_cancel₀ _ hlp.ne', div_mul_cancel₀ _ v.T.ne', ← Finset.sum_add_distrib]
    refine Finset.sum_congr rfl fun t _ => ?_
    have := (hrp t).ne'
    rw [← mul_add, ← add_div, div_self this, mul_one]
  rw [e5]
  unfold base gain
  rw [Finset.sum_mul]
  simp only [mul_sub, Finset.sum_sub_distrib]
  ring

/-- **C171, an edge.** Where one update with the only parent `j` already gains more than an edge costs, whatever the draw, the result has a parent for
`i`, or `i` comes before `j` in it. -/
theorem c171_edge {D : Data ℝ m n} (v : Valid D) {dt : ℝ} (hdt : D.dt = some dt) {acyclic : Edges n → Bool}
    (hac : ∀ E, acyclic E = true ↔ Acyclic fun a b => a ≠ b ∧ E a b = true) {draw : Nat → Fin n → Fin n → ℝ} (hd : ∀ t j i, 0 ≤ draw t j i)
    {penalty : Nat → ℝ} {c : ℝ} (hp : ∀ k, penalty (k + 1) = penalty k + c) {init : Edges n}
    (hi : Acyclic fun a b => init a b = true) {fuel fuel' : Nat} {r : Result ℝ n} {E : Edges n} {o : Obj ℝ n}
    (e : hillClimb (em (fit D Real.log (fun t => Real.exp (-D.decay * t)) fuel) acyclic draw penalty) fuel' init ⟨[], 0⟩ = .ok (r, E, o))
    {i j : Fin n} (hji : j ≠ i)
    (hcost : (∑ t, D.X t j * (1 - Real.exp (-D.decay * (D.last (D.seq t) - D.time t)))) * dt = ∑ t, D.X t j)
    (hg : ∀ t, c < gain D j i (draw t j i)) :
    (∃ k, E k i = true) ∨ Relation.TransGen (fun a b => a ≠ b ∧ E a b = true) i j := by
  by_contra hno
  rw [not_or] at hno
  obtain ⟨hno, hanc⟩ := hno
  have hno : ∀ k, E k i = false := fun k => by
    rw [← Bool.not_eq_true]
    exact fun q => hno ⟨k, q⟩
  obtain ⟨x1, x2, -, rec, x3, x4, -, x5⟩ := c60_result hac e
  have acE := x2 (fun a k => hi a (Relation.TransGen.mono (fun _ _ q => q.2) _ _ k))
  obtain ⟨g, g1, g2, -, -⟩ := x4 acE
  let N : Edges n := fun a b => if a = j ∧ b = i then true else E a b
  have hNE : ∀ a b, E a b = if a = j ∧ b = i then false else N a b := fun a b => by
    simp only [N]
    by_cases k : a = j ∧ b = i
    · rw [if_pos k, k.2, hno]
    · rw [if_neg k, if_neg k]
  have acN : Acyclic fun a b => a ≠ b ∧ N a b = true := by
    have key : ∀ u w, Relation.TransGen (fun a b => a ≠ b ∧ N a b = true) u w →
        Relation.TransGen (fun a b => a ≠ b ∧ E a b = true) u w ∨
          (Relation.ReflTransGen (fun a b => a ≠ b ∧ E a b = true) u j ∧ Relation.ReflTransGen (fun a b => a ≠ b ∧ E a b = true) i w) := by
      intro u w k
      have one : ∀ a b, (a ≠ b ∧ N a b = true) → (a ≠ b ∧ E a b = true) ∨ (a = j ∧ b = i) := by
        rintro a b ⟨h1, h2⟩
        by_cases q : a = j ∧ b = i
        · exact Or.inr q
        · simp only [N, if_neg q] at h2
          exact Or.inl ⟨h1, h2⟩
      induction k with
      | single q =>
        rcases one _ _ q with q | ⟨rfl, rfl⟩
        · exact Or.inl (Relation.TransGen.single q)
        · exact Or.inr ⟨Relation.ReflTransGen.refl, Relation.ReflTransGen.refl⟩
      | tail _ q ih =>
        rcases one _ _ q with q | ⟨rfl, rfl⟩
        · rcases ih with ih | ⟨h1, h2⟩
          · exact Or.inl (ih.tail q)
          · exact Or.inr ⟨h1, h2.tail q⟩
        · rcases ih with ih | ⟨h1, h2⟩
          · exact Or.inr ⟨ih.to_reflTransGen, Relation.ReflTransGen.refl⟩
          · exact Or.inr ⟨h1, Relation.ReflTransGen.refl⟩
    intro u k
    rcases key u u k with k | ⟨h1, h2⟩
    · exact acE u k
    · rcases Relation.reflTransGen_iff_eq_or_transGen.1 (h2.trans h1) with q | q
      · exact hji q
      · exact hanc q
  obtain ⟨g', L, k1, k2, k3⟩ := x5 N i j hji (fun a b h _ => by simp only [N, if_neg h])
    (fun k => acN i ((Relation.TransGen.single ⟨hji.symm, k.2⟩).tail ⟨hji, k.1⟩)) acN
  rw [g2] at k2
  cases k2
  rw [card_erase (E := N) (N := E) (i := i) (j := j) (by simp [N]) hNE, hp] at k3
  have hsum : ∑ b, (g' b).lik = ∑ b, (g b).lik + ((g' i).lik - (g i).lik) := by
    rw [← Finset.add_sum_erase _ _ (Finset.mem_univ i), ← Finset.add_sum_erase _ (fun b => (g b).lik) (Finset.mem_univ i),
      Finset.sum_congr rfl fun b hb => ?_]
    · ring
    · have hb := Finset.ne_of_mem_erase hb
      have : (fun a => N a b) = fun a => E a b := by
        funext a
        simp only [N]
        rw [if_neg fun q => hb q.2]
      have h1 := k1 b
      rw [this, g1 b] at h1
      rw [Option.some.inj h1]
  have hgi : (g i).lik = base D i := by
    obtain ⟨t, k⟩ := x3 i _ _ (g1 i)
    refine (fit_root v hdt (fun j hj => ?_) (fun j => ?_) (fun j hj => ?_) k).2.2
    · simp [hno] at hj
    · split
      · exact hd _ _ _
      · exact le_rfl
    · simp [hno]
  have hgi' : base D i + c < (g' i).lik := by
    obtain ⟨t, k⟩ := x3 i _ _ (k1 i)
    have hpa : (List.finRange n).filter (fun a => N a i) = [j] := by
      have : (fun a => N a i) = fun a => decide (a = j) := by
        funext a
        simp only [N, hno, and_true]
        by_cases q : a = j <;> simp [q]
      rw [this]
      have h2 : (List.finRange n).filter (fun a => a == j) = [j] := by
        rw [List.filter_beq, List.count_eq_one_of_mem (List.nodup_finRange n) (List.mem_finRange j)]
        rfl
      exact h2
    rw [hpa] at k
    have hN : ∀ a, N a i = true ↔ a = j := fun a => by
      simp only [N, hno, and_true]
      by_cases q : a = j <;> simp [q]
    have := fit_gain v hdt hcost (i := i) (by rw [if_pos ((hN j).2 rfl)]; exact hd _ _ _)
      (fun a q => by rw [if_neg fun w => q ((hN a).1 w)]) k
    simp only [if_pos ((hN j).2 rfl)] at this
    exact lt_of_lt_of_le (by linarith [hg t]) this
  rw [hsum, hgi] at k3
  linarith

/-- **C171, two event types.** If events of the first type follow none of the second, and one update gains more than an edge costs, the result is
exactly the edge from the first to the second. -/
theorem c171_pair {D : Data ℝ m 2} (v : Valid D) {dt : ℝ} (hdt : D.dt = some dt) {acyclic : Edges 2 → Bool}
    (hac : ∀ E, acyclic E = true ↔ Acyclic fun a b => a ≠ b ∧ E a b = true) {draw : Nat → Fin 2 → Fin 2 → ℝ} (hd : ∀ t j i, 0 ≤ draw t j i)
    {penalty : Nat → ℝ} {c : ℝ} (hc : 0 < c) (hp : ∀ k, penalty (k + 1) = penalty k + c) {init : Edges 2}
    (hi : Acyclic fun a b => init a b = true) {fuel fuel' : Nat} {r : Result ℝ 2} {E : Edges 2} {o : Obj ℝ 2}
    (e : hillClimb (em (fit D Real.log (fun t => Real.exp (-D.decay * t)) fuel) acyclic draw penalty) fuel' init ⟨[], 0⟩ = .ok (r, E, o))
    (hr : Apart D 1 0) (hcost : (∑ t, D.X t 0 * (1 - Real.exp (-D.decay * (D.last (D.seq t) - D.time t)))) * dt = ∑ t, D.X t 0)
    (hg : ∀ t, c < gain D 0 1 (draw t 0 1)) (a b : Fin 2) : E a b = true ↔ a = 0 ∧ b = 1 := by
  have h0 := (c171_root v hdt hac hd hc hp hi e (i := 0) (fun j hj => by
    have : j = 1 := by omega
    exact this ▸ hr)).1
  obtain ⟨x1, -⟩ := c60_result hac e
  have h11 : E 1 1 = false := by
    rw [x1, ← Bool.not_eq_true]
    exact fun k => hi 1 (Relation.TransGen.single k)
  have h01 : E 0 1 = true := by
    rcases c171_edge v hdt hac hd hp hi e (i := 1) (j := 0) (by decide) hcost hg with ⟨k, hk⟩ | k
    · have : k = 0 := by
        by_contra q
        have : k = 1 := by omega
        rw [this, h11] at hk
        cases hk
      exact this ▸ hk
    · obtain ⟨w, -, hw⟩ := Relation.TransGen.tail'_iff.1 k
      rw [(h0 w).1] at hw
      exact absurd hw.2 (by simp)
  constructor
  · intro k
    have hb : b = 1 := by
      by_contra q
      have q : b = 0 := by omega
      rw [q, (h0 a).1] at k
      cases k
    refine ⟨?_, hb⟩
    by_contra q
    have q : a = 1 := by omega
    rw [q, hb, h11] at k
    cases k
  · rintro ⟨rfl, rfl⟩
    exact h01

/-- What one parent can gain at most: its coefficient never exceeds the number of events of the child over what the update divides by. -/
theorem fit_bound {D : Data ℝ m n} (v : Valid D) {dt : ℝ} (hdt : D.dt = some dt) {i j : Fin n} {fuel : Nat} {a : Fin n → ℝ} (ha : ∀ k, 0 ≤ a k)
    (hz : ∀ k, k ≠ j → a k = 0) {f : Fit ℝ n} (h : fit D Real.log (kernel D) fuel i [j] a = .ok f) :
    f.lik ≤ base D i + (∑ t, D.X t i) / (integral D (kernel D) j * dt) * (∑ t, influence D (kernel D) t j) * D.T := by
  have hS : ∀ t j, 0 ≤ influence D (kernel D) t j := influence_nonneg v.nonneg _
  have hI := integral_nonneg v j
  have hd := v.dt dt hdt
  have hT := v.T
  have hz' : ∀ k ∉ [j], a k = 0 := fun k hk => hz k (by simpa using hk)
  obtain ⟨⟨p1, p2, p3⟩, q1, q3⟩ := fit_inv hdt (P := fun alpha mu => (∀ k, 0 ≤ alpha k) ∧ (∀ k ∉ [j], alpha k = 0) ∧ 0 < mu)
    (Q := fun alpha mu => alpha j ≤ (∑ t, D.X t i) / (integral D (kernel D) j * dt)) (fun alpha mu ⟨p1, p2, p3⟩ => by
      refine ⟨⟨alphaStep_nonneg v hS (integral_nonneg v) i [j] hd p1 p3, fun k hk => alphaStep_zero p2 hk, muStep_pos v hS i p1 p3⟩, ?_⟩
      unfold alphaStep
      simp only [List.mem_singleton, if_true]
      split
      · rename_i h0
        rw [h0, div_zero]
      · refine div_le_div_of_nonneg_right (Finset.sum_le_sum fun t _ => ?_) (mul_nonneg hI hd.le)
        have hr := rate_pos hS p1 p3 t
        have h1 : alpha j * influence D (kernel D) t j ≤ rate (influence D (kernel D)) alpha mu t := by
          unfold rate
          have := Finset.single_le_sum (f := fun k => influence D (kernel D) t k * alpha k) (fun k _ => mul_nonneg (hS t k) (p1 k)) (Finset.mem_univ j)
          linarith [mul_comm (alpha j) (influence D (kernel D) t j)]
        have h2 : alpha j * influence D (kernel D) t j / rate (influence D (kernel D)) alpha mu t ≤ 1 := (div_le_one hr).2 h1
        exact (mul_le_mul_of_nonneg_right h2 (v.nonneg t i)).trans_eq (one_mul _)) ⟨ha, hz', one_pos⟩ h
  set ep := (∑ t, D.X t i) / (integral D (kernel D) j * dt) with hep
  have hep0 : 0 ≤ ep := (p1 j).trans q1
  set B := ∑ t, influence D (kernel D) t j with hB
  have hB0 : 0 ≤ B := Finset.sum_nonneg fun t _ => hS t j
  have hrate : ∀ t, rate (influence D (kernel D)) f.alpha f.mu t ≤ ep * B + f.mu := fun t => by
    unfold rate
    rw [Finset.sum_eq_single j (fun b _ hb => by rw [p2 b (by simpa using hb), mul_zero]) (fun h => absurd (Finset.mem_univ j) h), mul_comm]
    have h1 : influence D (kernel D) t j ≤ B := Finset.single_le_sum (f := fun t => influence D (kernel D) t j) (fun t _ => hS t j) (Finset.mem_univ t)
    linarith [mul_le_mul q1 h1 (hS t j) hep0]
  have hle : logLik D Real.log (influence D (kernel D)) i f.alpha f.mu ≤ (∑ t, D.X t i) * Real.log (ep * B + f.mu) - f.mu * D.T := by
    unfold logLik
    have h1 : 0 ≤ ∑ k, (∑ t, 1 / D.decay * D.X t k) * f.alpha k := Finset.sum_nonneg fun k _ =>
      mul_nonneg (Finset.sum_nonneg fun t _ => mul_nonneg (by have := v.decay; positivity) (v.nonneg t k)) (p1 k)
    have h2 : ∑ t, D.X t i * Real.log (rate (influence D (kernel D)) f.alpha f.mu t) ≤ ∑ t, D.X t i * Real.log (ep * B + f.mu) :=
      Finset.sum_le_sum fun t _ => mul_le_mul_of_nonneg_left (Real.log_le_log (rate_pos hS p1 p3 t) (hrate t)) (v.nonneg t i)
    rw [← Finset.sum_mul] at h2
    linarith
  rw [q3]
  have := le_base v i (mu := ep * B + f.mu) (by have := mul_nonneg hep0 hB0; linarith)
  linarith

/-- A candidate of the first pass has no edge or one. -/
theorem changes_empty {N : Edges n} (h : N ∈ changes (fun _ _ => false : Edges n)) :
    (N = fun _ _ => false) ∨ ∃ j i, j ≠ i ∧ ∀ a b, N a b = decide (a = j ∧ b = i) := by
  unfold changes at h
  simp only [List.mem_flatMap, List.mem_finRange, true_and, List.mem_map, List.mem_range] at h
  obtain ⟨j, i, op, hop, rfl⟩ := h
  unfold oneStep
  by_cases hji : j = i
  · rw [if_pos hji]
    exact Or.inl rfl
  · rw [if_neg hji]
    interval_cases op
    · left
      funext a b
      simp
    · right
      refine ⟨j, i, hji, fun a b => ?_⟩
      by_cases h : a = j ∧ b = i
      · simp [h]
      · simp [h]
    · right
      refine ⟨i, j, Ne.symm hji, fun a b => ?_⟩
      by_cases h : a = i ∧ b = j
      · obtain ⟨rfl, rfl⟩ := h
        have : ¬(a = b) := Ne.symm hji
        simp [this]
      · by_cases h' : a = j ∧ b = i
        · obtain ⟨rfl, rfl⟩ := h'
          simp [hji]
        · simp [h, h']

/-- **C171, nothing found.** If, for all pairs, the number of events of the child, times all the influence of the parent, times the total time is
less than the price of an edge times what the update divides by, the search from the empty matrix ends with it, whatever the draws. -/
theorem c171_none {D : Data ℝ m n} (v : Valid D) {dt : ℝ} (hdt : D.dt = some dt) {acyclic : Edges n → Bool}
    (hac : ∀ E, acyclic E = true ↔ Acyclic fun a b => a ≠ b ∧ E a b = true) {draw : Nat → Fin n → Fin n → ℝ} (hd : ∀ t j i, 0 ≤ draw t j i)
    {penalty : Nat → ℝ} {c : ℝ} (hp : ∀ k, penalty (k + 1) = penalty k + c) {fuel fuel' : Nat} {r : Result ℝ n} {E : Edges n} {o : Obj ℝ n}
    (e : hillClimb (em (fit D Real.log (fun t => Real.exp (-D.decay * t)) fuel) acyclic draw penalty) fuel' (fun _ _ => false) ⟨[], 0⟩ = .ok (r, E, o))
    (hsmall : ∀ i j, j ≠ i → (∑ t, D.X t i) / (integral D (kernel D) j * dt) * (∑ t, influence D (kernel D) t j) * D.T ≤ c) :
    ∀ a b, E a b = false := by
  unfold hillClimb at e
  cases k : em (fit D Real.log (fun t => Real.exp (-D.decay * t)) fuel) acyclic draw penalty (fun _ _ => false) ⟨[], 0⟩ with
  | error x => rw [k] at e; exact absurd e (by simp [bind, Except.bind])
  | ok q =>
    obtain ⟨r0, o0⟩ := q
    rw [k] at e
    simp only [bind, Except.bind] at e
    obtain ⟨x1, x2, x3⟩ := em_spec k
    have good0 : Good (fit D Real.log (fun t => Real.exp (-D.decay * t)) fuel) draw ([] : Hist ℝ n) := fun i pa f q => by simp at q
    cases fuel' with
    | zero => simp [climb, throw, throwThe, MonadExceptOf.throw] at e
    | succ fuel' =>
      unfold climb at e
      cases kp : pass (em (fit D Real.log (fun t => Real.exp (-D.decay * t)) fuel) acyclic draw penalty) (changes fun _ _ => false) r0
          (fun _ _ => false) true o0 with
      | error x => rw [kp] at e; exact absurd e (by simp [bind, Except.bind])
      | ok q =>
        obtain ⟨r1, E1, st, o1⟩ := q
        rw [kp] at e
        simp only [bind, Except.bind] at e
        obtain ⟨y1, y2, y3, -, -, y6⟩ := pass_spec x3 kp
        have good1 := y2 (x2 good0)
        rcases y6 with ⟨rfl, rfl, rfl⟩ | ⟨-, hlt, hmem⟩
        · simp only [if_true, pure, Except.pure, Except.ok.injEq, Prod.mk.injEq] at e
          obtain ⟨-, rfl, -⟩ := e
          exact fun a b => rfl
        · exfalso
          have x3' := x3.mono y1
          rcases changes_empty hmem with rfl | ⟨j, i, hji, hE1⟩
          · rw [x3'.unique y3] at hlt
            exact absurd hlt (lt_irrefl _)
          · rcases x3' with ⟨h0, -⟩ | ⟨-, g, hg, rfl⟩
            · have : acyclic (fun _ _ => false) = true := (hac _).2 fun a h => by
                obtain ⟨w, -, hw⟩ := Relation.TransGen.tail'_iff.1 h
                simp at hw
              rw [this] at h0
              cases h0
            · rcases y3 with ⟨-, rfl⟩ | ⟨-, g', hg', rfl⟩
              · exact absurd hlt (by simp [val])
              · have hlt : (∑ i, (g i).lik) - penalty (edgeSum fun _ _ => false) < (∑ i, (g' i).lik) - penalty (edgeSum E1) := WithBot.coe_lt_coe.1 hlt
                have hcard : edgeSum E1 = edgeSum (fun _ _ => false : Edges n) + 1 := by
                  rw [edgeSum_card, edgeSum_card]
                  refine card_erase (E := E1) (N := fun _ _ => false) (i := i) (j := j) (by simp [hE1]) fun a b => ?_
                  rw [hE1]
                  by_cases h : a = j ∧ b = i <;> simp [h]
                rw [hcard, hp] at hlt
                have hsum : ∑ b, (g' b).lik = ∑ b, (g b).lik + ((g' i).lik - (g i).lik) := by
                  rw [← Finset.add_sum_erase _ _ (Finset.mem_univ i), ← Finset.add_sum_erase _ (fun b => (g b).lik) (Finset.mem_univ i),
                    Finset.sum_congr rfl fun b hb => ?_]
                  · ring
                  · have hb := Finset.ne_of_mem_erase hb
                    have : parents E1 b = parents (fun _ _ => false) b := by
                      unfold parents
                      congr 1
                      funext a
                      rw [hE1, decide_eq_false fun q => hb q.2]
                    have h1 := hg' b
                    rw [this, hg b] at h1
                    rw [Option.some.inj h1]
                have hgi : (g i).lik = base D i := by
                  obtain ⟨t, k⟩ := good1 _ _ _ (hg i)
                  have hpa : parents (fun _ _ => false : Edges n) i = [] := by simp [parents]
                  rw [hpa] at k
                  refine (fit_root v hdt ?_ ?_ ?_ k).2.2 <;> simp
                have hgi' : (g' i).lik ≤ base D i + c := by
                  obtain ⟨t, k⟩ := good1 _ _ _ (hg' i)
                  have hpa : parents E1 i = [j] := by
                    have : (fun a => E1 a i) = fun a => a == j := by
                      funext a
                      rw [hE1]
                      by_cases q : a = j <;> simp [q]
                    unfold parents
                    rw [this, List.filter_beq, List.count_eq_one_of_mem (List.nodup_finRange n) (List.mem_finRange j)]
                    rfl
                  rw [hpa] at k
                  refine (fit_bound v hdt (fun a => ?_) (fun a q => ?_) k).trans (by linarith [hsmall i j hji])
                  · split
                    · exact hd _ _ _
                    · exact le_rfl
                  · simp [q]
                rw [hsum, hgi] at hlt
                linarith

/-- The same table in another unit of time: times, total time and time interval are multiplied by `s`, the decay is divided by `s`. -/
noncomputable def inUnit (D : Data ℝ m n) (s : ℝ) : Data ℝ m n :=
  { D with time := fun t => s * D.time t, last := fun q => s * D.last q, T := s * D.T, decay := D.decay / s, dt := D.dt.map fun d => s * d }

theorem inUnit_valid {D : Data ℝ m n} (v : Valid D) {s : ℝ} (hs : 0 < s) : Valid (inUnit D s) where
  nonneg := v.nonneg
  occurs := v.occurs
  last := fun t => mul_le_mul_of_nonneg_left (v.last t) hs.le
  T := mul_pos hs v.T
  decay := div_pos v.decay hs
  dt := fun dt h => by
    simp only [inUnit, Option.map_eq_some_iff] at h
    obtain ⟨d, hd, rfl⟩ := h
    exact mul_pos hs (v.dt d hd)

theorem kernel_unit (D : Data ℝ m n) {s : ℝ} (hs : 0 < s) (x y : ℝ) : kernel (inUnit D s) (s * x - s * y) = kernel D (x - y) := by
  unfold kernel inUnit
  simp only
  congr 1
  field_simp

theorem reached_unit (D : Data ℝ m n) {s : ℝ} (hs : 0 < s) (ind : Fin m) (fuel : Nat) (next : Fin m) :
    reached (inUnit D s) (kernel (inUnit D s)) ind fuel next = reached D (kernel D) ind fuel next := by
  induction fuel generalizing next with
  | zero => rfl
  | succ fuel ih =>
    unfold reached
    have h1 : kernel (inUnit D s) ((inUnit D s).time next - (inUnit D s).time ind) = kernel D (D.time next - D.time ind) := kernel_unit D hs _ _
    simp only [ih, h1]
    rfl

theorem influence_unit (D : Data ℝ m n) {s : ℝ} (hs : 0 < s) : influence (inUnit D s) (kernel (inUnit D s)) = influence D (kernel D) := by
  funext t j
  unfold influence
  simp only [reached_unit D hs]
  rfl

theorem integral_unit (D : Data ℝ m n) {s : ℝ} (hs : 0 < s) (j : Fin n) :
    integral (inUnit D s) (kernel (inUnit D s)) j = s * integral D (kernel D) j := by
  unfold integral
  rw [Finset.mul_sum]
  refine Finset.sum_congr rfl fun t _ => ?_
  have h1 : kernel (inUnit D s) ((inUnit D s).last ((inUnit D s).seq t) - (inUnit D s).time t) = kernel D (D.last (D.seq t) - D.time t) := kernel_unit D hs _ _
  rw [h1]
  change D.X t j * ((1 - _) / (D.decay / s)) = _
  rw [div_div_eq_mul_div]
  ring

/-- **C171, the unit of time.** For every table of events, and every price of an edge, there is a unit of time so small that in it, and in every smaller
one, the search from the empty matrix finds nothing, whatever the draws. -/
theorem c171_unit {D : Data ℝ m n} (v : Valid D) {dt : ℝ} (hdt : D.dt = some dt) {c : ℝ} (hc : 0 < c) :
    ∃ s0 : ℝ, 0 < s0 ∧ ∀ s ≥ s0, Valid (inUnit D s) ∧ ∀ {acyclic : Edges n → Bool}, (∀ E, acyclic E = true ↔ Acyclic fun a b => a ≠ b ∧ E a b = true) →
      ∀ {draw : Nat → Fin n → Fin n → ℝ}, (∀ t j i, 0 ≤ draw t j i) → ∀ {penalty : Nat → ℝ}, (∀ k, penalty (k + 1) = penalty k + c) →
      ∀ {fuel fuel' : Nat} {r : Result ℝ n} {E : Edges n} {o : Obj ℝ n},
        hillClimb (em (fit (inUnit D s) Real.log (fun t => Real.exp (-(inUnit D s).decay * t)) fuel) acyclic draw penalty) fuel' (fun _ _ => false)
          ⟨[], 0⟩ = .ok (r, E, o) → ∀ a b, E a b = false := by
  have hS : ∀ t j, 0 ≤ influence D (kernel D) t j := influence_nonneg v.nonneg _
  have hT := v.T
  have hd := v.dt dt hdt
  let w : Fin n → Fin n → ℝ := fun i j => (∑ t, D.X t i) / (integral D (kernel D) j * dt) * (∑ t, influence D (kernel D) t j) * D.T
  have hw : ∀ i j, 0 ≤ w i j := fun i j => mul_nonneg (mul_nonneg (div_nonneg (v.occurs i).le (mul_nonneg (integral_nonneg v j) hd.le))
    (Finset.sum_nonneg fun t _ => hS t j)) hT.le
  have hW : 0 ≤ ∑ i, ∑ j, w i j := Finset.sum_nonneg fun i _ => Finset.sum_nonneg fun j _ => hw i j
  refine ⟨(∑ i, ∑ j, w i j) / c + 1, by positivity, fun s hs => ?_⟩
  have hs0 : 0 < s := lt_of_lt_of_le (by positivity) hs
  refine ⟨inUnit_valid v hs0, fun hac _ hdr _ hp _ _ _ _ _ e => ?_⟩
  refine c171_none (inUnit_valid v hs0) (dt := s * dt) (by simp [inUnit, hdt]) hac hdr hp e fun i j _ => ?_
  rw [integral_unit D hs0, influence_unit D hs0]
  change (∑ t, D.X t i) / (s * integral D (kernel D) j * (s * dt)) * (∑ t, influence D (kernel D) t j) * (s * D.T) ≤ c
  have h1 : (∑ t, D.X t i) / (s * integral D (kernel D) j * (s * dt)) * (∑ t, influence D (kernel D) t j) * (s * D.T) = w i j / s := by
    simp only [w]
    by_cases h0 : integral D (kernel D) j = 0
    · simp [h0]
    · field_simp
  rw [h1, div_le_iff₀ hs0]
  have h2 : w i j ≤ ∑ i, ∑ j, w i j :=
    (Finset.single_le_sum (f := fun j => w i j) (fun j _ => hw i j) (Finset.mem_univ j)).trans
      (Finset.single_le_sum (f := fun i => ∑ j, w i j) (fun i _ => Finset.sum_nonneg fun j _ => hw i j) (Finset.mem_univ i))
  have h3 := mul_le_mul_of_nonneg_left hs hc.le
  rw [mul_add, mul_div_cancel₀ _ hc.ne'] at h3
  linarith

end

section examples

/-- The time interval of the example, a little more than 2. -/
noncomputable def d : ℝ := 2 / (1 - 1 / 2 ^ 20)

theorem d_pos : 0 < d := by unfold d; norm_num

/-- A hundred events of the first type, a hundred of the second one interval later, and a hundred of the first after twenty intervals. The kernel halves
in an interval. -/
noncomputable def follow : Data ℝ 3 2 :=
  ⟨fun _ => 0, fun t => ![0, 1, 20] t * d, fun t j => if j = 0 then ![100, 0, 100] t else ![0, 100, 0] t, fun _ => 20 * d, 20 * d, Real.log 2 / d, some d⟩

theorem follow_valid : Valid follow where
  nonneg := by intro t j; fin_cases t <;> fin_cases j <;> simp [follow]
  occurs := by
    intro j
    rw [Fin.sum_univ_three]
    fin_cases j
    · change (0 : ℝ) < 100 + 0 + 100
      norm_num
    · change (0 : ℝ) < 0 + 100 + 0
      norm_num
  last := by
    intro t
    have := d_pos
    fin_cases t <;> simp [follow] <;> linarith
  T := mul_pos (by norm_num) d_pos
  decay := div_pos (Real.log_pos (by norm_num)) d_pos
  dt := by
    intro dt h
    simp only [follow, Option.some.injEq] at h
    exact h ▸ d_pos

theorem follow_kernel (k : ℕ) : Real.exp (-follow.decay * (k * d)) = (1 / 2) ^ k := by
  have h : -follow.decay * (k * d) = k * -Real.log 2 := by
    have := d_pos.ne'
    simp only [follow]
    field_simp
  rw [h, Real.exp_nat_mul, Real.exp_neg, Real.exp_log (by norm_num)]
  norm_num

theorem follow_apart : Apart follow 1 0 := by
  intro s t hst _ hk hx
  by_contra hs
  have hs1 : s = 1 := by
    by_contra q
    fin_cases s <;> simp_all [follow]
  subst hs1
  have ht : t = 2 := by
    fin_cases t
    · exact absurd hst (by decide)
    · simp [follow] at hx
    · rfl
  subst ht
  have h := follow_kernel 19
  have e : follow.time 2 - follow.time 1 = (19 : ℕ) * d := by
    simp [follow]
    ring
  rw [e, h] at hk
  norm_num at hk

theorem follow_influence : influence follow (kernel follow) 1 0 = 50 := by
  have hb := follow_valid.decay
  have hd := d_pos
  rw [c65_influence (fun _ _ _ _ _ _ => rfl) (fun a b hab _ => ?_) (fun x y h => ?_)]
  · have h0 : kernel follow (follow.time 1 - follow.time 0) = 1 / 2 := by
      have := follow_kernel 1
      unfold kernel
      rw [show follow.time 1 - follow.time 0 = (1 : ℕ) * d by simp [follow], this]
      norm_num
    rw [Finset.sum_filter, Fin.sum_univ_three]
    have x1 : follow.X 1 0 = 0 := by simp [follow]
    have x0 : follow.X 0 0 = 100 := by simp [follow]
    rw [if_pos ⟨by decide, rfl, by rw [h0]; norm_num⟩, if_neg (c := (2 : Fin 3) ≤ 1 ∧ _) (fun h => absurd h.1 (by decide)), h0, x0, x1]
    norm_num
  · simp only [follow]
    refine mul_le_mul_of_nonneg_right ?_ hd.le
    fin_cases a <;> fin_cases b <;> simp at hab ⊢
  · unfold kernel
    exact Real.exp_le_exp.2 (by nlinarith)

theorem follow_cost : (∑ t, follow.X t 0 * (1 - Real.exp (-follow.decay * (follow.last (follow.seq t) - follow.time t)))) * d = ∑ t, follow.X t 0 := by
  have h20 := follow_kernel 20
  have h0 := follow_kernel 0
  rw [Fin.sum_univ_three, Fin.sum_univ_three]
  have x0 : follow.X 0 0 = 100 := by simp [follow]
  have x1 : follow.X 1 0 = 0 := by simp [follow]
  have x2 : follow.X 2 0 = 100 := by simp [follow]
  have e0 : follow.last (follow.seq 0) - follow.time 0 = (20 : ℕ) * d := by simp [follow]
  have e2 : follow.last (follow.seq 2) - follow.time 2 = (0 : ℕ) * d := by simp [follow]
  rw [x0, x1, x2, e0, e2, h20, h0]
  unfold d
  norm_num

theorem follow_gain {a : ℝ} (ha : 1 / 50 ≤ a) : 100 * Real.log 2 < gain follow 0 1 a := by
  have hd := d_pos
  have hl := Real.log_two_gt_d9
  unfold gain
  simp only [Fin.sum_univ_three, follow_influence]
  have x0 : follow.X 0 0 = 100 := by simp [follow]
  have x1 : follow.X 1 0 = 0 := by simp [follow]
  have x2 : follow.X 2 0 = 100 := by simp [follow]
  have y0 : follow.X 0 1 = 0 := by simp [follow]
  have y1 : follow.X 1 1 = 100 := by simp [follow]
  have y2 : follow.X 2 1 = 0 := by simp [follow]
  have hT : follow.T = 20 * d := rfl
  have hb : follow.decay = Real.log 2 / d := rfl
  simp only [x0, x1, x2, y0, y1, y2, hT, hb, zero_mul, zero_add, add_zero]
  have hp : 0 < a * 50 + 1 := by linarith
  have hu : 1 / 2 ≤ a * 50 / (a * 50 + 1) := by
    rw [le_div_iff₀ hp]
    linarith
  have hlog : 0 < Real.log 2 := by linarith
  set u := a * 50 / (a * 50 + 1) with hudef
  have h1 : 1 / (a * 50 + 1) = 1 - u := by
    rw [hudef]
    field_simp
    ring
  have h2 : 100 * u / ((100 + 100) / (Real.log 2 / d)) * 50 + 100 * (1 / (a * 50 + 1)) / (20 * d) = (5 * u * Real.log 2 + (1 - u)) * (100 / (20 * d)) := by
    rw [h1]
    field_simp
    ring
  have h3 : 0 < 100 / (20 * d) := by positivity
  have h4 : 2 < 5 * u * Real.log 2 + (1 - u) := by nlinarith
  rw [h2, Real.log_mul (by linarith) h3.ne', add_sub_cancel_right]
  exact mul_lt_mul_of_pos_left (Real.log_lt_log (by norm_num) h4) (by norm_num)

/-- The price of `BIC` with the default `reg` for 300 events of two types. -/
noncomputable def bic300 (k : Nat) : ℝ := (2 + k) * Real.log 300 * 3

theorem bic300_succ (k : Nat) : bic300 (k + 1) = bic300 k + Real.log 300 * 3 := by
  unfold bic300
  push_cast
  ring

theorem empty_acyclic {n : Nat} : Acyclic fun a b : Fin n => ((fun _ _ => false : Edges n) a b = true) := fun a h => by
  obtain ⟨w, -, hw⟩ := Relation.TransGen.tail'_iff.1 h
  cases hw

/-- **C171, expected and false: the unit of time does not matter.** With draws of at least 1/50 the search finds, on the 300 events of `follow`, exactly
the edge from the first type to the second. In a smaller unit of time it finds none on the same events. -/
theorem c171_unit_false : ∃ s : ℝ, 0 < s ∧ Valid (inUnit follow s) ∧ ∃ K, ∀ fuel ≥ K, ∀ fuel' ≥ K,
    ∀ {acyclic : Edges 2 → Bool}, (∀ E, acyclic E = true ↔ Acyclic fun a b => a ≠ b ∧ E a b = true) →
    ∀ {draw : Nat → Fin 2 → Fin 2 → ℝ}, (∀ t j i, 1 / 50 ≤ draw t j i ∧ draw t j i ≤ 1) →
      (∃ r E o, hillClimb (em (fit follow Real.log (fun t => Real.exp (-follow.decay * t)) fuel) acyclic draw bic300) fuel' (fun _ _ => false) ⟨[], 0⟩ =
        .ok (r, E, o) ∧ ∀ a b, E a b = true ↔ a = 0 ∧ b = 1) ∧
      ∃ r E o, hillClimb (em (fit (inUnit follow s) Real.log (fun t => Real.exp (-(inUnit follow s).decay * t)) fuel) acyclic draw bic300) fuel'
        (fun _ _ => false) ⟨[], 0⟩ = .ok (r, E, o) ∧ ∀ a b, E a b = false := by
  have hc : 0 < Real.log 300 * 3 := mul_pos (Real.log_pos (by norm_num)) (by norm_num)
  obtain ⟨s, hs, h⟩ := c171_unit follow_valid (dt := d) rfl hc
  obtain ⟨v', h⟩ := h s le_rfl
  obtain ⟨K1, k1⟩ := c60_ends_real follow_valid (dt := d) rfl
  obtain ⟨K2, k2⟩ := c60_ends_real v' (dt := s * d) rfl
  refine ⟨s, hs, v', max (max K1 K2) (2 ^ (2 * 2) + 1), fun fuel hf fuel' hf' acyclic hac draw hd => ?_⟩
  have hf1 : fuel ≥ K1 := by omega
  have hf2 : fuel ≥ K2 := by omega
  have hf3 : fuel' > 2 ^ (2 * 2) := by omega
  have hd' : ∀ t j i, 0 ≤ draw t j i ∧ draw t j i ≤ 1 := fun t j i => ⟨by linarith [(hd t j i).1], (hd t j i).2⟩
  have hlog : Real.log 300 * 3 < 100 * Real.log 2 := by
    have h1 : Real.log 300 < Real.log (2 ^ 9) := Real.log_lt_log (by norm_num) (by norm_num)
    rw [Real.log_pow] at h1
    have h2 : 0 < Real.log 2 := Real.log_pos (by norm_num)
    push_cast at h1
    linarith
  constructor
  · obtain ⟨⟨r, E, o⟩, e⟩ := k1 fuel hf1 fuel' hf3 acyclic draw hd' bic300 (fun _ _ => false)
    exact ⟨r, E, o, e, c171_pair follow_valid rfl hac (fun t j i => (hd' t j i).1) hc bic300_succ empty_acyclic e follow_apart follow_cost
      fun t => hlog.trans (follow_gain (hd t 0 1).1)⟩
  · obtain ⟨⟨r, E, o⟩, e⟩ := k2 fuel hf2 fuel' hf3 acyclic draw hd' bic300 (fun _ _ => false)
    exact ⟨r, E, o, e, h hac (fun t j i => (hd' t j i).1) bic300_succ e⟩

/-- A table whose types are apart: two sequences, one with the first type only, one with the second. -/
noncomputable def apart : Data ℝ 4 2 :=
  ⟨fun t => if t < 2 then 0 else 1, fun t => if t = 0 ∨ t = 2 then 0 else 1, fun t j => if (j = 0 ↔ t < 2) then 1 else 0, fun _ => 1, 2, 1, some 1⟩

example : Valid apart ∧ ∀ j i, j ≠ i → Apart apart j i := by
  refine ⟨⟨?_, ?_, ?_, ?_, ?_, ?_⟩, ?_⟩
  · intro t j; simp only [apart]; split <;> norm_num
  · intro j; fin_cases j <;> simp [apart]
    · exact ⟨0, by decide⟩
    · exact ⟨2, by decide⟩
  · intro t; simp only [apart]; split <;> norm_num
  · norm_num [apart]
  · norm_num [apart]
  · intro dt h; simp only [apart, Option.some.injEq] at h; rw [← h]; norm_num
  · intro j i hji s t _ hs _ hx
    fin_cases j <;> fin_cases i <;> fin_cases s <;> fin_cases t <;> simp_all [apart]

end examples

end SHPFind
end Cdmir
