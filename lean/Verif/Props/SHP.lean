import Verif.Lemmas.SHPFit

/-! C60, C65: the hill climbing of SHP and its inner fit. -/

namespace Cdmir
open BigOperators Spec SHP

section
variable {m n : Nat}

/-- C65: the fit of one event type ends. One number of turns suffices for all event types, all sets of parents and all draws
between 0 and 1; the coefficients found are not negative, the base rate is positive, the likelihood reported is that of the
parameters reported, and only the coefficients of parents have changed. -/
theorem c65_fit_ends {D : Data ℝ m n} (v : Valid D) {dt : ℝ} (hdt : D.dt = some dt) :
    ∃ N, ∀ fuel ≥ N, ∀ (i : Fin n) (pa : List (Fin n)) (a : Fin n → ℝ), (∀ j, 0 ≤ a j ∧ a j ≤ 1) →
      ∃ f, fit D Real.log (fun t => Real.exp (-D.decay * t)) fuel i pa a = .ok f ∧ (∀ j, 0 ≤ f.alpha j) ∧ 0 < f.mu ∧
        (∀ j, j ∉ pa → f.alpha j = a j) ∧
        f.lik = (∑ t, D.X t i * Real.log ((∑ j, influence D (fun t => Real.exp (-D.decay * t)) t j * f.alpha j) + f.mu)) -
          ((∑ j, (∑ t, D.X t j) / D.decay * f.alpha j) + f.mu * D.T) := by
  obtain ⟨N, h⟩ := fit_total v hdt
  refine ⟨N, fun fuel hf i pa a ha => ?_⟩
  obtain ⟨f, e, k1, k2, k3, k4⟩ := h fuel hf i pa a ha
  refine ⟨f, e, k1, k2, k4, ?_⟩
  rw [k3]
  unfold logLik rate kernel
  rw [neg_add_eq_sub]
  congr 2
  exact Finset.sum_congr rfl fun j _ => by rw [← Finset.mul_sum, one_div, inv_mul_eq_div]

theorem reached_sum {K : Type} [Field K] [LinearOrder K] (D : Data K m n) (kappa : K → K) (ind t : Fin m) (x : K) (fuel : Nat) (next : Fin m)
    (hf : m ≤ next.val + fuel) :
    ((reached D kappa ind fuel next).map fun p => if p.1 = t then x * p.2 else 0).sum =
      if next ≤ t ∧ ∀ q, next ≤ q → q ≤ t → D.seq q = D.seq ind ∧ 1 / 10000 ≤ kappa (D.time q - D.time ind) then
        x * kappa (D.time t - D.time ind) else 0 := by
  induction fuel generalizing next with
  | zero => exact absurd next.isLt (by omega)
  | succ fuel ih =>
    unfold reached
    by_cases hs : D.seq next = D.seq ind
    · rw [if_pos hs]
      simp only
      by_cases hk : kappa (D.time next - D.time ind) < 1 / 10000
      · rw [if_pos hk, if_neg fun h => absurd (h.2 next le_rfl h.1).2 (not_le.2 hk)]
        rfl
      · rw [if_neg hk, List.map_cons, List.sum_cons]
        rcases lt_trichotomy next t with hlt | rfl | hgt
        · have hm : next.val + 1 < m := by
            have h1 : next.val < t.val := hlt
            have := t.isLt
            omega
          rw [if_neg hlt.ne, dif_pos hm, zero_add, ih ⟨next.val + 1, hm⟩ (by simp; omega)]
          congr 1
          apply propext
          constructor
          · rintro ⟨h1, h2⟩
            refine ⟨hlt.le, fun q hq hqt => ?_⟩
            rcases eq_or_lt_of_le hq with rfl | hq
            · exact ⟨hs, not_lt.1 hk⟩
            · exact h2 q (by rw [Fin.le_def]; exact hq) hqt
          · rintro ⟨h1, h2⟩
            exact ⟨by rw [Fin.le_def]; exact hlt, fun q hq hqt => h2 q (le_of_lt (by rw [Fin.lt_def]; exact hq)) hqt⟩
        · rw [if_pos rfl, if_pos ⟨le_rfl, fun q h1 h2 => by rw [le_antisymm h2 h1]; exact ⟨hs, not_lt.1 hk⟩⟩]
          by_cases hm : next.val + 1 < m
          · rw [dif_pos hm, ih ⟨next.val + 1, hm⟩ (by simp; omega), if_neg fun h => ?_, add_zero]
            have : next.val + 1 ≤ next.val := h.1
            omega
          · rw [dif_neg hm]
            simp
        · rw [if_neg hgt.ne', if_neg fun h => absurd h.1 (not_le.2 hgt), zero_add]
          by_cases hm : next.val + 1 < m
          · rw [dif_pos hm, ih ⟨next.val + 1, hm⟩ (by simp; omega), if_neg fun h => ?_]
            have h1 : next.val + 1 ≤ t.val := h.1
            have h2 : t.val < next.val := hgt
            omega
          · rw [dif_neg hm]
            rfl
    · rw [if_neg hs, if_neg fun h => absurd (h.2 next le_rfl h.1).1 hs]
      rfl

/-- C65: with the rows of each sequence together and in the order of time, and a kernel that decays, `sum_t_X_kappa` at a row is the
sum over the rows of the same sequence up to this one of the count times the kernel of the time passed, without those below 0.0001. The
row itself is included. -/
theorem c65_influence {K : Type} [Field K] [LinearOrder K] [IsStrictOrderedRing K] {D : Data K m n} {kappa : K → K}
    (hs : ∀ a b c : Fin m, a ≤ b → b ≤ c → D.seq a = D.seq c → D.seq b = D.seq a) (ht : ∀ a b, a ≤ b → D.seq a = D.seq b → D.time a ≤ D.time b)
    (hk : ∀ x y, x ≤ y → kappa y ≤ kappa x) (t : Fin m) (j : Fin n) :
    influence D kappa t j = ∑ s with s ≤ t ∧ D.seq s = D.seq t ∧ 1 / 10000 ≤ kappa (D.time t - D.time s), D.X s j * kappa (D.time t - D.time s) := by
  unfold influence
  rw [← Fin.sum_univ_def, Finset.sum_filter]
  refine Finset.sum_congr rfl fun s _ => ?_
  rw [reached_sum D kappa s t (D.X s j) m s (by omega)]
  congr 1
  apply propext
  constructor
  · rintro ⟨h1, h2⟩
    exact ⟨h1, (h2 t h1 le_rfl).1.symm, (h2 t h1 le_rfl).2⟩
  · rintro ⟨h1, h2, h3⟩
    refine ⟨h1, fun q hq hqt => ⟨hs s q t hq hqt h2, h3.trans (hk _ _ (sub_le_sub_right (ht q t hqt ?_) _))⟩⟩
    rw [hs s q t hq hqt h2, h2]

/-- Two sequences; the second row of the first one gets twice the count of the first row and three times its own. -/
example : let D : Data ℚ 3 1 := ⟨fun t => if t = 2 then 1 else 0, fun t => if t = 1 then 1 else 0, fun t _ => t.val + 3, fun _ => 2, 2, 1, some 1⟩
    (fun t => influence D (fun x => 3 - x) t 0) = ![9, 18, 15] := by
  decide +kernel

/-- C65: `sum_t_X_kappa` at a row is made of the counts of earlier rows of the same sequence only. -/
theorem reached_mem {K : Type} [Field K] [LinearOrder K] {D : Data K m n} {kappa : K → K} {ind : Fin m} {fuel : Nat} {next : Fin m}
    {p : Fin m × K} (h : p ∈ reached D kappa ind fuel next) :
    next ≤ p.1 ∧ D.seq p.1 = D.seq ind ∧ p.2 = kappa (D.time p.1 - D.time ind) ∧ 1 / 10000 ≤ p.2 := by
  induction fuel generalizing next with
  | zero => simp [reached] at h
  | succ fuel ih =>
    unfold reached at h
    split at h
    · rename_i hs
      simp only at h
      split at h
      · simp at h
      · rename_i q
        rcases List.mem_cons.1 h with rfl | h
        · exact ⟨le_rfl, hs, rfl, not_lt.1 q⟩
        · split at h
          · rename_i hm
            obtain ⟨k1, k2⟩ := ih h
            exact ⟨le_trans (by simp [Fin.le_def]) k1, k2⟩
          · simp at h
    · simp at h

end

section
variable {K : Type} [Field K] [LinearOrder K] [IsStrictOrderedRing K] {n : Nat}

theorem changes_diag {E N : Edges n} (h : N ∈ changes E) (a : Fin n) : N a a = E a a := by
  unfold changes at h
  simp only [List.mem_flatMap, List.mem_map] at h
  obtain ⟨j, -, i, -, op, -, rfl⟩ := h
  unfold oneStep
  split
  · rfl
  · rename_i hji
    have h1 : (a, a) ≠ (j, i) := fun e => hji ((Prod.mk.inj e).1.symm.trans (Prod.mk.inj e).2)
    have h2 : (a, a) ≠ (i, j) := fun e => hji ((Prod.mk.inj e).2.symm.trans (Prod.mk.inj e).1)
    simp only [if_neg h1, if_neg h2]

/-- Every matrix that differs at one pair and has at most one edge there is a candidate. -/
theorem mem_changes {E N : Edges n} {i j : Fin n} (hij : j ≠ i) (h : ∀ a b, ¬(a = j ∧ b = i) → ¬(a = i ∧ b = j) → N a b = E a b)
    (h2 : ¬(N j i = true ∧ N i j = true)) : N ∈ changes E := by
  unfold changes
  simp only [List.mem_flatMap, List.mem_map, List.mem_finRange, true_and, List.mem_range]
  have key : ∀ op, (N j i = (op == 1)) → (N i j = (op != 0 && op != 1)) → oneStep E j i op = N := by
    intro op k1 k2
    unfold oneStep
    rw [if_neg hij]
    funext a b
    by_cases e1 : (a, b) = (j, i)
    · rw [if_pos e1]
      obtain ⟨rfl, rfl⟩ := Prod.mk.inj e1
      exact k1.symm
    · rw [if_neg e1]
      by_cases e2 : (a, b) = (i, j)
      · rw [if_pos e2]
        obtain ⟨rfl, rfl⟩ := Prod.mk.inj e2
        exact k2.symm
      · rw [if_neg e2]
        exact (h a b (fun e => e1 (by rw [e.1, e.2])) fun e => e2 (by rw [e.1, e.2])).symm
  cases x : N j i <;> cases y : N i j
  · exact ⟨j, i, 0, by omega, key 0 (by rw [x]; rfl) (by rw [y]; rfl)⟩
  · exact ⟨j, i, 2, by omega, key 2 (by rw [x]; rfl) (by rw [y]; rfl)⟩
  · exact ⟨j, i, 1, by omega, key 1 (by rw [x]; rfl) (by rw [y]; rfl)⟩
  · exact absurd ⟨x, y⟩ h2

theorem edgeSum_card (E : Edges n) : edgeSum E = (Finset.univ.filter fun p : Fin n × Fin n => E p.2 p.1 = true).card := by
  unfold edgeSum parents
  rw [← List.ofFn_eq_map, List.sum_ofFn, Finset.card_filter, Fintype.sum_prod_type]
  refine Finset.sum_congr rfl fun i _ => ?_
  rw [← Finset.card_filter, ← List.toFinset_card_of_nodup ((List.nodup_finRange n).filter _)]
  congr 1
  ext j
  simp

omit [IsStrictOrderedRing K] in
/-- C60: what Hill_Climb returns, for any fit of an event type, any penalty and any draws. There is a matrix `E` with the diagonal of
the initial one and a record `rec` of fits (event type and set of parents to a fit from one of the draws) such that: if the initial
matrix is acyclic off the diagonal, so is `E`; if `E` is acyclic, the result is read off the record; if not, nothing better was found
than the initial matrix; no matrix that differs from `E` at one pair of event types has a higher recorded score; and the
coefficients returned never form a cycle. -/
theorem c60_result {fit : Fin n → List (Fin n) → (Fin n → K) → Except Err (Fit K n)} {acyclic : Edges n → Bool}
    (hac : ∀ E, acyclic E = true ↔ Acyclic fun a b => a ≠ b ∧ E a b = true) {draw : Nat → Fin n → Fin n → K} {penalty : Nat → K}
    {fuel : Nat} {init E : Edges n} {r : Result K n} {o : Obj K n}
    (e : hillClimb (em fit acyclic draw penalty) fuel init ⟨[], 0⟩ = .ok (r, E, o)) :
    (∀ a, E a a = init a a) ∧
    ((Acyclic fun a b => a ≠ b ∧ init a b = true) → Acyclic fun a b => a ≠ b ∧ E a b = true) ∧
    (Acyclic fun a b => a ≠ b ∧ r.alpha a b ≠ 0) ∧
    ∃ rec : Fin n → (Fin n → Bool) → Option (Fit K n),
      (∀ i c f, rec i c = some f → ∃ t, fit i ((List.finRange n).filter c) (fun j => if c j then draw t j i else 0) = .ok f) ∧
      ((Acyclic fun a b => a ≠ b ∧ E a b = true) → ∃ g : Fin n → Fit K n, (∀ i, rec i (fun j => E j i) = some (g i)) ∧
        r.lik = some ((∑ i, (g i).lik) - penalty (Finset.univ.filter fun p : Fin n × Fin n => E p.2 p.1 = true).card) ∧
        (∀ a b, r.alpha a b = if E a b then (g b).alpha a else 0) ∧ ∀ b, r.mu b = (g b).mu) ∧
      ((¬ Acyclic fun a b => a ≠ b ∧ E a b = true) → E = init ∧ r.lik = none ∧ ∀ a b, r.alpha a b = 0) ∧
      ∀ N : Edges n, ∀ i j, j ≠ i → (∀ a b, ¬(a = j ∧ b = i) → ¬(a = i ∧ b = j) → N a b = E a b) → ¬(N j i = true ∧ N i j = true) →
        (Acyclic fun a b => a ≠ b ∧ N a b = true) → ∃ (g : Fin n → Fit K n) (L : K), (∀ i, rec i (fun j => N j i) = some (g i)) ∧
          r.lik = some L ∧ (∑ i, (g i).lik) - penalty (Finset.univ.filter fun p : Fin n × Fin n => N p.2 p.1 = true).card ≤ L := by
  unfold hillClimb at e
  cases k : em fit acyclic draw penalty init ⟨[], 0⟩ with
  | error x => rw [k] at e; exact absurd e (by simp [bind, Except.bind])
  | ok q =>
    obtain ⟨r0, o0⟩ := q
    rw [k] at e
    simp only [bind, Except.bind] at e
    obtain ⟨x1, x2, x3⟩ := em_spec k
    have good0 : Good fit draw ([] : Hist K n) := fun i pa f q => by simp at q
    obtain ⟨z0, z1, z2, z3, z5, z4⟩ := climb_spec (P := fun E => ∀ a, E a a = init a a)
      (fun E hE N hN a => by rw [changes_diag hN, hE]) x3 (fun _ => rfl) e
    have hnone : acyclic E = false → E = init ∧ r.lik = none ∧ ∀ a b, r.alpha a b = 0 := by
      intro hE
      rcases z2 with ⟨-, hr⟩ | ⟨h, -⟩
      · rcases z5 with ⟨rfl, rfl⟩ | h
        · rw [hr]; exact ⟨rfl, rfl, fun _ _ => rfl⟩
        · rw [hr] at h; exact absurd h not_lt_bot
      · rw [hE] at h; cases h
    have hinit : acyclic init = true → acyclic E = true := by
      intro hi
      by_contra hE
      obtain ⟨h1, -, -⟩ := hnone (by simpa using hE)
      rw [h1] at hE
      exact hE hi
    have hsome : acyclic E = true → ∃ g : Fin n → Fit K n, (∀ i, o.hist.lookup (i, parents E i) = some (g i)) ∧
        r.lik = some ((∑ i, (g i).lik) - penalty (edgeSum E)) ∧
        (∀ a b, r.alpha a b = if E a b then (g b).alpha a else 0) ∧ ∀ b, r.mu b = (g b).mu := by
      intro hE
      rcases z2 with ⟨h, -⟩ | ⟨-, g, hg, hr⟩
      · rw [hE] at h; cases h
      · exact ⟨g, hg, by rw [hr], fun a b => by rw [hr], fun b => by rw [hr]⟩
    refine ⟨z0, fun h => (hac E).1 (hinit ((hac init).2 h)), ?_, fun i c => o.hist.lookup (i, (List.finRange n).filter c), ?_, ?_, ?_, ?_⟩
    · cases hE : acyclic E with
      | true =>
        obtain ⟨g, -, -, ha, -⟩ := hsome hE
        refine fun a ha' => (hac E).1 hE a (Relation.TransGen.mono (fun x y q => ⟨q.1, ?_⟩) _ _ ha')
        have := q.2
        rw [ha] at this
        by_contra c
        rw [if_neg c] at this
        exact this rfl
      | false =>
        obtain ⟨-, -, h0⟩ := hnone hE
        intro a ha'
        obtain ⟨b, hb, -⟩ := Relation.TransGen.head'_iff.1 ha'
        exact hb.2 (h0 _ _)
    · intro i c f h
      obtain ⟨t, ht⟩ := z1 (x2 good0) i _ f h
      refine ⟨t, ?_⟩
      rw [← ht]
      congr 1
      funext j
      simp
    · intro hE
      obtain ⟨g, h1, h2, h3, h4⟩ := hsome ((hac E).2 hE)
      exact ⟨g, h1, by rw [h2, edgeSum_card], h3, h4⟩
    · intro hE
      exact hnone (by simpa using fun q => hE ((hac E).1 q))
    · intro N i j hij hN h2 hNa
      obtain ⟨rN, cN, hle⟩ := z4 N (mem_changes hij hN h2)
      rcases cN with ⟨h, -⟩ | ⟨-, g, hg, hr⟩
      · rw [(hac N).2 hNa] at h; cases h
      · rw [hr] at hle
        cases hL : r.lik with
        | none => rw [hL] at hle; exact absurd hle (by simp [val])
        | some L =>
          rw [hL] at hle
          refine ⟨g, L, hg, rfl, ?_⟩
          rw [← edgeSum_card]
          exact WithBot.coe_le_coe.1 hle

/-- C60: Hill_Climb ends whenever the fits end: at most one pass for every 0/1 matrix. -/
theorem c60_ends {fit : Fin n → List (Fin n) → (Fin n → K) → Except Err (Fit K n)}
    (ht : ∀ i pa a, (∀ j, 0 ≤ a j ∧ a j ≤ 1) → ∃ f, fit i pa a = .ok f) (acyclic : Edges n → Bool) {draw : Nat → Fin n → Fin n → K}
    (hd : ∀ t j i, 0 ≤ draw t j i ∧ draw t j i ≤ 1) (penalty : Nat → K) (init : Edges n) {fuel : Nat} (hf : 2 ^ (n * n) < fuel) :
    ∃ s, hillClimb (em fit acyclic draw penalty) fuel init ⟨[], 0⟩ = .ok s := by
  unfold hillClimb
  obtain ⟨⟨r, o⟩, e⟩ := em_total ht (acyclic := acyclic) (penalty := penalty) hd init ⟨[], 0⟩
  rw [e]
  obtain ⟨-, -, c⟩ := em_spec e
  refine climb_total ht hd c (Nat.lt_of_le_of_lt ?_ hf)
  refine (Finset.card_le_univ _).trans ?_
  simp [Fintype.card_pi, pow_mul]

end

section
variable {m n : Nat}

/-- C60, C65: on real event tables with a time interval, Hill_Climb ends, from every initial matrix and for all draws. -/
theorem c60_ends_real {D : Data ℝ m n} (v : Valid D) {dt : ℝ} (hdt : D.dt = some dt) :
    ∃ N, ∀ fuel ≥ N, ∀ fuel' > 2 ^ (n * n), ∀ (acyclic : Edges n → Bool) (draw : Nat → Fin n → Fin n → ℝ),
      (∀ t j i, 0 ≤ draw t j i ∧ draw t j i ≤ 1) → ∀ (penalty : Nat → ℝ) (init : Edges n),
      ∃ s, hillClimb (em (fit D Real.log (fun t => Real.exp (-D.decay * t)) fuel) acyclic draw penalty) fuel' init ⟨[], 0⟩ = .ok s := by
  obtain ⟨N, h⟩ := c65_fit_ends v hdt
  refine ⟨N, fun fuel hf fuel' hf' acyclic draw hd penalty init => c60_ends (fun i pa a ha => ?_) acyclic hd penalty init hf'⟩
  obtain ⟨f, e, -⟩ := h fuel hf i pa a ha
  exact ⟨f, e⟩

/-- Two event types, three rows in one sequence. -/
noncomputable def exData : Data ℝ 3 2 :=
  ⟨fun _ => 0, fun t => t.val, fun t j => if t.val % 2 = j.val then 1 else 0, fun _ => 2, 2, 1, some 1⟩

example : Valid exData := by
  constructor
  · intro t j; unfold exData; simp only; split <;> norm_num
  · intro j; fin_cases j
    · exact lt_of_lt_of_le one_pos (Finset.single_le_sum (f := fun t => exData.X t 0) (fun t _ => by
        simp only [exData]; split <;> norm_num) (Finset.mem_univ (0 : Fin 3)) |> le_trans (by simp [exData]))
    · exact lt_of_lt_of_le one_pos (Finset.single_le_sum (f := fun t => exData.X t 1) (fun t _ => by
        simp only [exData]; split <;> norm_num) (Finset.mem_univ (1 : Fin 3)) |> le_trans (by simp [exData]))
  · intro t; fin_cases t <;> simp [exData]
  · norm_num [exData]
  · norm_num [exData]
  · intro dt h; simp only [exData, Option.some.injEq] at h; rw [← h]; norm_num

end

section
variable {K : Type} [Field K] [LinearOrder K] {m n : Nat}

theorem fitLoop_none {D : Data K m n} (hdt : D.dt = none) {log : K → K} {S : Fin m → Fin n → K} {I : Fin n → K} {i : Fin n}
    {pa : List (Fin n)} (hp : pa ≠ []) {fuel : Nat} {a : Fin n → K} {mu : K} {f : Fit K n} :
    fitLoop D log S I i pa fuel none a mu ≠ .ok f := by
  cases fuel with
  | zero => simp [fitLoop, throw, throwThe, MonadExceptOf.throw]
  | succ fuel =>
    unfold fitLoop
    simp only [Bool.false_eq_true, if_false]
    rw [hdt]
    simp only
    rw [if_neg hp]
    simp [throw, throwThe, MonadExceptOf.throw]

/-- C60, finding: with the default `time_interval=None` Hill_Climb never returns when there are two event types or more: the first
candidate with an edge multiplies by `None`. -/
theorem c60_default_raises {D : Data K m n} (hdt : D.dt = none) (hn : 2 ≤ n) (log kappa : K → K) (fuel fuel' : Nat)
    {acyclic : Edges n → Bool} (hac : ∀ E, acyclic E = true ↔ Acyclic fun a b => a ≠ b ∧ E a b = true)
    (draw : Nat → Fin n → Fin n → K) (penalty : Nat → K) (s : Result K n × Edges n × Obj K n) :
    hillClimb (em (fit D log kappa fuel) acyclic draw penalty) fuel' (fun _ _ => false) ⟨[], 0⟩ ≠ .ok s := by
  intro e
  unfold hillClimb at e
  cases k : em (fit D log kappa fuel) acyclic draw penalty (fun _ _ => false) ⟨[], 0⟩ with
  | error x => rw [k] at e; exact absurd e (by simp [bind, Except.bind])
  | ok q =>
    obtain ⟨r0, o0⟩ := q
    rw [k] at e
    simp only [bind, Except.bind] at e
    obtain ⟨x1, x2, x3⟩ := em_spec k
    have good0 : Good (fit D log kappa fuel) draw ([] : Hist K n) := fun i pa f q => by simp at q
    cases fuel' with
    | zero => simp [climb, throw, throwThe, MonadExceptOf.throw] at e
    | succ fuel' =>
      unfold climb at e
      cases kp : pass (em (fit D log kappa fuel) acyclic draw penalty) (changes fun _ _ => false) r0 (fun _ _ => false) true o0 with
      | error x => rw [kp] at e; exact absurd e (by simp [bind, Except.bind])
      | ok q =>
        obtain ⟨r1, E1, st, o1⟩ := q
        obtain ⟨y1, y2, -, -, y5, -⟩ := pass_spec x3 kp
        let a : Fin n := ⟨0, by omega⟩
        let b : Fin n := ⟨1, by omega⟩
        have hab : a ≠ b := by simp [a, b]
        let N : Edges n := fun x y => decide (x = a ∧ y = b)
        have hN : acyclic N = true := by
          refine (hac N).2 fun x hx => ?_
          obtain ⟨y, hy, hx⟩ := Relation.TransGen.head'_iff.1 hx
          simp only [N, decide_eq_true_eq] at hy
          rcases Relation.ReflTransGen.cases_head hx with h | ⟨z, hz, -⟩
          · exact hab (hy.2.1.symm.trans (h.symm.trans hy.2.2))
          · simp only [N, decide_eq_true_eq] at hz
            exact hab (hz.2.1.symm.trans hy.2.2)
        obtain ⟨rN, cN, -⟩ := y5 N (mem_changes (i := b) (j := a) hab (fun x y h1 _ => decide_eq_false h1) fun h => by
          simp only [N, decide_eq_true_eq] at h
          exact hab h.2.1.symm)
        rcases cN with ⟨h, -⟩ | ⟨-, g, hg, -⟩
        · rw [hN] at h; cases h
        · obtain ⟨t, ht⟩ := y2 (x2 good0) b _ _ (hg b)
          refine fitLoop_none hdt (fun h => ?_) ht
          have : a ∈ parents N b := mem_parents.2 (by simp [N])
          rw [h] at this
          simp at this

end

/-- A run over the rationals with a fit that only counts parents: two event types, one parent gains 3. -/
def exFit : Fin 2 → List (Fin 2) → (Fin 2 → ℚ) → Except Err (Fit ℚ 2) := fun i pa a => .ok ⟨if i = 1 then 3 * pa.length else 0, a, 2⟩

example : (hillClimb (em exFit (fun E => !(E 0 1 && E 1 0)) (fun t j i => (1 : ℚ) / (t + j.val + i.val + 1)) fun k => 2 + k) 20
    (fun _ _ => false) ⟨[], 0⟩).map (fun s => (s.1.lik, s.1.alpha 0 1, s.1.mu 0, s.2.1 0 1, s.2.1 1 0)) =
    .ok (some 0, 1 / 7, 2, true, false) := by decide +kernel

end Cdmir
