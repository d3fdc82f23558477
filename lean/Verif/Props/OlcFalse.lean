import Verif.Props.Olc
import Mathlib.Data.List.Sort

/-! C78 to C81: what `olc` gets wrong, and examples for the theorems about it. -/

set_option linter.unusedSectionVars false

namespace Cdmir.Olc

variable {Col F P : Type} [Zero F] [Sub F] [Mul F] [Div F] {E : Env Col F P} {n : Nat}

/-- The test is symmetric and does not react to subtracting a constant and dividing by a constant: `residual` is `x` minus the
intercept of the regression and `normalize` is `x` minus its mean, divided by its standard deviation. -/
structure Env.Invariant (E : Env Col F P) : Prop where
  residual : ∀ a l c, E.pval (E.residual a l) c = E.pval a c
  normalize : ∀ a c, E.pval (E.normalize a) c = E.pval a c
  symm : ∀ a b, E.pval a b = E.pval b a

/-- The columns still look like the original ones to the test. -/
def Like (E : Env Col F P) (data : Nat → Col) (s : St Col) : Prop := ∀ x c, E.pval (s.data x) c = E.pval (data x) c

theorem Like.pair (hI : E.Invariant) {data : Nat → Col} {s : St Col} (h : Like E data s) (x y : Nat) :
    E.pval (s.data x) (s.data y) = E.pval (data x) (data y) := by
  rw [h x, hI.symm, h y, hI.symm]

theorem step1_cases (hI : E.Invariant) {data : Nat → Col} {s : St Col} (h : Like E data s) (x y : Nat) :
    Like E data (step1 E s x y).1 ∧
    ((hasEdge s.udg x y = true ∧ E.geAlpha (E.pval (data x) (data y)) = true ∧ (step1 E s x y).2 = true ∧
        (step1 E s x y).1.udg = removeEdge s.udg x y ∧ (step1 E s x y).1.cg = addArc s.cg y x) ∨
      (¬ (hasEdge s.udg x y = true ∧ E.geAlpha (E.pval (data x) (data y)) = true) ∧ step1 E s x y = (s, false))) := by
  unfold step1
  have hp : E.pval (E.residual (s.data x) [s.data y]) (s.data y) = E.pval (data x) (data y) := by rw [hI.residual, h.pair hI]
  by_cases he : hasEdge s.udg x y = true
  · rw [if_pos he]
    simp only [hp]
    by_cases hg : E.geAlpha (E.pval (data x) (data y)) = true
    · rw [if_pos hg]
      refine ⟨?_, Or.inl ⟨he, hg, rfl, rfl, rfl⟩⟩
      intro z c
      by_cases hz : z = x
      · subst hz
        simp only [Function.update_self]
        rw [hI.normalize, hI.residual, h z]
      · simp only [Function.update_of_ne hz]
        exact h z c
    · rw [if_neg hg]
      exact ⟨h, Or.inr ⟨fun hc => hg hc.2, rfl⟩⟩
  · rw [if_neg he]
    exact ⟨h, Or.inr ⟨fun hc => he hc.1, rfl⟩⟩

/-- The order in which the ordered pairs are visited. -/
def Lex (p q : Nat × Nat) : Prop := p.1 < q.1 ∨ (p.1 = q.1 ∧ p.2 < q.2)

theorem arrangements_lex (n : Nat) : (arrangements n).Pairwise Lex := by
  unfold arrangements
  rw [List.pairwise_flatMap]
  constructor
  · intro x _
    rw [List.pairwise_map]
    exact (List.pairwise_lt_range.filter _).imp fun h => Or.inr ⟨rfl, h⟩
  · refine List.pairwise_lt_range.imp fun {a b} hab p hp q hq => ?_
    obtain ⟨_, _, rfl⟩ := List.mem_map.1 hp
    obtain ⟨_, _, rfl⟩ := List.mem_map.1 hq
    exact Or.inl hab

/-- All arrows go from a larger to a smaller number. -/
def Down (s : St Col) : Prop := ∀ e ∈ s.cg, e.2 < e.1

theorem fold1_down (hI : E.Invariant) {data : Nat → Col} : ∀ (l : List (Nat × Nat)) (r : St Col × Bool), l.Pairwise Lex →
    (∀ p ∈ l, p.1 ≠ p.2) → Like E data r.1 → Down r.1 →
    (∀ p ∈ l, p.2 < p.1 → E.geAlpha (E.pval (data p.1) (data p.2)) = true → hasEdge r.1.udg p.1 p.2 = false ∨ (p.2, p.1) ∈ l) →
    Like E data (fold1 E l r).1 ∧ Down (fold1 E l r).1 := by
  intro l
  induction l with
  | nil => intro r _ _ h1 h2 _; exact ⟨h1, h2⟩
  | cons p l ih =>
    intro r hp hne hl hd hq
    rw [fold1_cons]
    rw [List.pairwise_cons] at hp
    obtain ⟨hl', hc⟩ := step1_cases hI hl p.1 p.2
    rcases hc with ⟨he, hg, hf, hu, hcg⟩ | ⟨hno, hs⟩
    · have hlt : p.1 < p.2 := by
        by_contra hlt
        have hlt' : p.2 < p.1 := by have := hne p (by simp); omega
        rcases hq p (by simp) hlt' hg with h | h
        · rw [he] at h; cases h
        · rcases List.mem_cons.1 h with h | h
          · have := congrArg Prod.fst h; simp only at this; omega
          · rcases hp.1 _ h with h | h <;> simp only at h <;> omega
      refine ih _ hp.2 (fun q hq => hne q (by simp [hq])) hl' ?_ ?_
      · intro e he'
        rw [hcg, mem_addArc] at he'
        rcases he' with he' | rfl
        · exact hd e he'
        · exact hlt
      · intro q hql hq2 hq3
        simp only [hu]
        rcases hq q (by simp [hql]) hq2 hq3 with h | h
        · exact Or.inl (hasEdge_false (removeEdge_sub _ _ _) h)
        · rcases List.mem_cons.1 h with h | h
          · left
            rw [← h]
            simp only
            rw [hasEdge_comm]
            exact hasEdge_removed _ _ _
          · exact Or.inr h
    · rw [hs]
      refine ih _ hp.2 (fun q hq => hne q (by simp [hq])) hl hd ?_
      intro q hql hq2 hq3
      rcases hq q (by simp [hql]) hq2 hq3 with h | h
      · exact Or.inl h
      · rcases List.mem_cons.1 h with h | h
        · left
          have hp1 : p.1 = q.2 := by rw [← h]
          have hp2 : p.2 = q.1 := by rw [← h]
          rw [hp1, hp2] at hno
          have hg' : E.geAlpha (E.pval (data q.2) (data q.1)) = true := by rw [hI.symm]; exact hq3
          simp only
          by_contra hcon
          refine hno ⟨?_, hg'⟩
          rw [hasEdge_comm]
          simpa using hcon
        · exact Or.inr h

theorem phase1_down (hI : E.Invariant) {data : Nat → Col} : ∀ (fuel : Nat) (s s' : St Col), phase1 E n fuel s = Except.ok s' →
    Like E data s → Down s → Like E data s' ∧ Down s' := by
  intro fuel
  induction fuel with
  | zero => intro s s' h; cases h
  | succ fuel ih =>
    intro s s' h hl hd
    have hp : pass1 E n s = fold1 E (arrangements n) (s, false) := rfl
    obtain ⟨h1, h2⟩ := fold1_down hI (arrangements n) (s, false) (arrangements_lex n) (fun p hp => (mem_arrangements.1 hp).2.2) hl hd
      (fun p hp _ _ => Or.inr (by
        obtain ⟨a, b, c⟩ := mem_arrangements.1 hp
        exact mem_arrangements.2 ⟨b, a, fun e => c e.symm⟩))
    unfold phase1 at h
    simp only [hp] at h
    split at h
    · exact ih _ _ h h1 h2
    · cases h
      exact ⟨h1, h2⟩

/-- After the first phase, with a test of this kind: exactly what is independent is joined by an arrow, from the larger to the
smaller number. -/
theorem phase1_result (hI : E.Invariant) {data : Nat → Col} {s1 : St Col} {fuel : Nat}
    (e1 : phase1 E n fuel (init n data) = Except.ok s1) (d1 : Dirs n (init n data) s1)
    (f1 : ∀ p ∈ arrangements n, (step1 E s1 p.1 p.2).2 = false) :
    Like E data s1 ∧ Down s1 ∧ ∀ x y, x < y → y < n → E.geAlpha (E.pval (data x) (data y)) = true →
      (y, x) ∈ s1.cg ∧ hasEdge s1.udg x y = false := by
  obtain ⟨hl, hd⟩ := phase1_down hI fuel _ _ e1 (fun _ _ => rfl) (by intro e he; simp at he)
  refine ⟨hl, hd, fun x y hxy hy hg => ?_⟩
  have hne : hasEdge s1.udg x y = false := by
    by_contra hc
    have hf := f1 (x, y) (mem_arrangements.2 ⟨by omega, hy, by simp only; omega⟩)
    rcases (step1_cases hI hl x y).2 with ⟨_, _, h3, _⟩ | ⟨h3, _⟩
    · simp only at hf
      rw [h3] at hf
      cases hf
    · exact h3 ⟨by simpa using hc, hg⟩
  refine ⟨?_, hne⟩
  rcases ((GInv0.init n data).dirs d1).cover x y (by omega) hy (by omega) with h | h | h
  · rw [hne] at h; cases h
  · have := hd _ h; simp only at this; omega
  · exact h

/-- C79 fails for every test of this kind: two variables that the test takes to be independent (`pval >= alpha`) are always joined by
an arrow in the result, from the one with the larger number to the one with the smaller number; and the coefficient reported for
this arrow is 0 divided by something. -/
theorem c79_false (hE : E.Right) (hI : E.Invariant) {data : Nat → Col} {fuel : Nat} {r : Result Col F}
    (h : olc E fuel n data = Except.ok r) {x y : Nat} (hxy : x < y) (hy : y < n)
    (hg : E.geAlpha (E.pval (data x) (data y)) = true) : r.adjmat x y = 1 ∧ ∃ v, r.coef x y = 0 / v := by
  obtain ⟨hn, s1, s2, s', lid', d1, e1, f1, d2, dd, e2, rfl, rr, f⟩ := olc_ok hE h
  obtain ⟨_, _, h3⟩ := phase1_result hI e1 d1 f1
  obtain ⟨h4, h5⟩ := h3 x y hxy hy hg
  have h6 : hasEdge s2.udg x y = false := hasEdge_false d2.sub h5
  have h7 : (y, x) ∈ s2.cg := d2.arcs h4
  obtain ⟨_, _, k3⟩ := fixed_reach rr (i := y) (j := x) hy (by omega) (by omega) (by rw [hasEdge_comm]; exact h6)
  obtain ⟨_, k2, _⟩ := fixed_reach rr (i := x) (j := y) (by omega) hy (by omega) h6
  have h8 : (y, x) ∈ s'.cg := k3.2 h7
  refine ⟨adjmat_one.2 h8, s'.A y y, ?_⟩
  simp only [coefOf]
  rw [if_pos h8, if_pos ⟨hy, by omega⟩]
  rw [k2]

/-! ### Two variables -/

theorem step3_two (hE : E.Right) {data : Nat → Col} (cov : Nat → Nat → F) (l : Nat) {po : List Nat} (hpo : ∀ z ∈ po, z < 2)
    (s : St3 F) (hs : Edges 2 s.udg) (h0 : ∀ x, s.surrogate x = []) (p : Nat × Nat) :
    ∃ s', step3 E data cov 2 l po s p = Except.ok s' ∧ s'.cg = s.cg ∧ s'.A = s.A ∧ s'.surrogate = s.surrogate ∧
      s'.latent = s.latent ∧ s'.orient = s.orient ∧ Edges 2 s'.udg := by
  unfold step3
  split
  · rename_i he
    obtain ⟨hx, hy, ne⟩ := hs.of he
    have hcs : E.order (inter (s.surrogate p.1) (s.surrogate p.2)) = [] := by
      have := hE.order [] (by simp)
      rw [List.perm_nil] at this
      simpa [h0, inter] using this
    have hl : ∀ (zs : List Nat), (∀ z ∈ zs, z < 2) → ∀ t : St3 F, latentLoop E data 2 l p.1 p.2 zs t = Except.ok t := by
      intro zs
      induction zs with
      | nil => intro _ t; rfl
      | cons z zs ih =>
        intro hz t
        unfold latentLoop
        rw [if_pos (by have := hz z (by simp); omega)]
        exact ih (fun w hw => hz w (by simp [hw])) t
    simp only [pairTest, hcs, List.isEmpty_nil, Bool.not_true, Bool.and_false, Bool.false_eq_true, if_false]
    rw [hl po hpo]
    refine ⟨_, rfl, ?_⟩
    split
    · exact ⟨rfl, rfl, rfl, rfl, rfl, hs.sub (removeEdge_sub _ _ _)⟩
    · exact ⟨rfl, rfl, rfl, rfl, rfl, hs⟩
  · exact ⟨s, rfl, rfl, rfl, rfl, rfl, rfl, hs⟩

theorem phase3_two (hE : E.Right) {data : Nat → Col} (cov : Nat → Nat → F) {po : List Nat} (hpo : ∀ z ∈ po, z < 2) (fuel : Nat)
    (s : St3 F) (hs : Edges 2 s.udg) (h0 : ∀ x, s.surrogate x = []) :
    ∃ s', phase3 E data cov 2 po (fuel + 1) 0 s = Except.ok (s', 0) ∧ s'.cg = s.cg ∧ s'.A = s.A := by
  have key : ∀ (ps : List (Nat × Nat)) (s : St3 F), Edges 2 s.udg → (∀ x, s.surrogate x = []) →
      ∃ s', ps.foldlM (step3 E data cov 2 (0 + 2) po) s = Except.ok s' ∧ s'.cg = s.cg ∧ s'.A = s.A ∧
        s'.latent = s.latent ∧ s'.orient = s.orient := by
    intro ps
    induction ps with
    | nil => intro s _ _; exact ⟨s, rfl, rfl, rfl, rfl, rfl⟩
    | cons p ps ih =>
      intro s hs h0
      obtain ⟨s1, e, h1, h2, h3, h4, h5, h6⟩ := step3_two hE (data := data) cov (0 + 2) hpo s hs h0 p
      obtain ⟨s2, e', k1, k2, k3, k4⟩ := ih s1 h6 (by rw [h3]; exact h0)
      refine ⟨s2, ?_, k1.trans h1, k2.trans h2, k3.trans h4, k4.trans h5⟩
      rw [List.foldlM_cons, e]
      exact e'
  obtain ⟨s', e, h1, h2, h3, h4⟩ := key (pairs po) { s with latent := false, orient := false } hs h0
  refine ⟨s', ?_, h1, h2⟩
  unfold phase3
  rw [e]
  simp only [Except.bind, bind]
  rw [h3, h4]
  rfl

theorem filter_two {u : List (Nat × Nat)} (h : Edges 2 u) :
    ((List.range 2).filter fun y => hasEdge u 0 y) = (if hasEdge u 0 1 then [1] else []) ∧
    ((List.range 2).filter fun y => hasEdge u 1 y) = if hasEdge u 0 1 then [0] else [] := by
  have h0 : ∀ x, hasEdge u x x = false := fun x => by
    by_contra hc
    exact (h.of (by simpa using hc)).2.2 rfl
  have h1 : hasEdge u 1 0 = hasEdge u 0 1 := hasEdge_comm _ _ _
  have e : List.range 2 = [0, 1] := rfl
  rw [e]
  constructor
  · cases hc : hasEdge u 0 1 <;> simp [h0, hc]
  · cases hc : hasEdge u 0 1 <;> simp [h0, h1, hc]

theorem step2_zero (hI : E.Invariant) {data : Nat → Col} {s : St Col} (he : Edges 2 s.udg) (hl : Like E data s) (hd : Down s) :
    ∃ r, step2 E 2 s 0 = Except.ok r ∧ Like E data r.1 ∧ Down r.1 ∧ Edges 2 r.1.udg ∧
      (hasEdge r.1.udg 0 1 = true → E.geAlpha (E.fisher [E.pval (data 0) (data 1)]) = false) := by
  unfold step2 neighbors
  rw [if_pos (by decide), (filter_two he).1]
  simp only [pure_bind]
  by_cases hc : hasEdge s.udg 0 1 = true
  · rw [if_pos hc]
    simp only [List.isEmpty_cons, Bool.false_eq_true, if_false, List.map_cons, List.map_nil, hI.residual, hl.pair hI, List.foldl_cons,
      List.foldl_nil]
    split
    · refine ⟨_, rfl, hl, ?_, he.sub (removeEdge_sub _ _ _), ?_⟩
      · intro e h
        simp only [mem_addArc] at h
        rcases h with h | rfl
        · exact hd e h
        · decide
      · simp only [hasEdge_removed]
        intro h
        cases h
    · rename_i hg
      exact ⟨_, rfl, hl, hd, he, fun _ => by simpa using hg⟩
  · rw [if_neg hc]
    exact ⟨_, rfl, hl, hd, he, fun h => absurd h hc⟩

theorem step2_one (hI : E.Invariant) {data : Nat → Col} {s : St Col} (he : Edges 2 s.udg) (hl : Like E data s)
    (h0 : hasEdge s.udg 0 1 = true → E.geAlpha (E.fisher [E.pval (data 0) (data 1)]) = false) :
    step2 E 2 s 1 = Except.ok (s, false) := by
  unfold step2 neighbors
  rw [if_pos (by decide), (filter_two he).2]
  simp only [pure_bind]
  by_cases hc : hasEdge s.udg 0 1 = true
  · rw [if_pos hc]
    simp only [List.isEmpty_cons, Bool.false_eq_true, if_false, List.map_cons, List.map_nil, hI.residual, hl.pair hI]
    rw [hI.symm, h0 hc]
    rfl
  · rw [if_neg hc]
    rfl

theorem phase2_two (hI : E.Invariant) {data : Nat → Col} : ∀ (fuel : Nat) (s s' : St Col), phase2 E 2 fuel s = Except.ok s' →
    Edges 2 s.udg → Like E data s → Down s → Down s' ∧ Edges 2 s'.udg := by
  intro fuel
  induction fuel with
  | zero => intro s s' h; cases h
  | succ fuel ih =>
    intro s s' h he hl hd
    obtain ⟨r, e, h1, h2, h3, h4⟩ := step2_zero hI he hl hd
    have hp : pass2 E 2 s = Except.ok (r.1, (false || r.2) || false) := by
      have er : List.range 2 = [0, 1] := rfl
      unfold pass2
      rw [er]
      simp only [List.foldlM_cons, List.foldlM_nil, e, Except.bind, bind, step2_one hI h3 h1 h4, pure, Except.pure]
    unfold phase2 at h
    rw [hp] at h
    simp only [Except.bind, bind] at h
    split at h
    · exact ih _ _ h h3 h1 h2
    · cases h
      exact ⟨h2, h3⟩

/-- C79 and C80 fail for two variables: with every test of this kind an arrow from the first to the second variable is never
reported, and the coefficient reported for an arrow from the second to the first is 0 divided by 0. -/
theorem c79_two (hE : E.Right) (hI : E.Invariant) {data : Nat → Col} {fuel : Nat} {r : Result Col F}
    (h : olc E fuel 2 data = Except.ok r) : r.size = 2 ∧ r.adjmat 1 0 ≠ 1 ∧ (r.adjmat 0 1 = 1 → r.coef 0 1 = 0 / 0) := by
  obtain ⟨s1, s2, e1, d1, f1, e2, d2, dd, _⟩ := olc_reach hE (by decide : (2 : Nat) ≠ 1) data (fuel := fuel + 2)
    (by simp [pairs, List.range, List.range.loop])
  have h' : olc E (fuel + 2) 2 data = Except.ok r := by rw [olc_mono data (fuel := fuel) (by rw [h]; simp) (by omega), h]
  obtain ⟨hl, hd, _⟩ := phase1_result hI e1 d1 f1
  have he1 : Edges 2 s1.udg := (edges_init 2).sub d1.sub
  obtain ⟨hd2, he2⟩ := phase2_two hI _ _ _ e2 he1 hl hd
  obtain ⟨s', e3, c1, c2⟩ := phase3_two hE (data := s2.data) (E.cov ((List.range 2).map s2.data)) (partialObserved_lt hE s2.udg)
    (fuel + 1) (init3 s2) he2 (fun _ => rfl)
  have eo : olc E (fuel + 2) 2 data = Except.ok ⟨0 + 2, adjmatOf s'.udg s'.cg, coefOf 2 s'.cg s'.A, s2.data⟩ := by
    unfold olc
    rw [e1]
    simp only [Except.bind, bind, e2]
    rw [e3]
    rfl
  rw [eo] at h'
  cases h'
  refine ⟨rfl, ?_, ?_⟩
  · simp only [ne_eq, adjmat_one]
    intro hc
    rw [c1] at hc
    have := hd2 _ hc
    simp only at this
    omega
  · simp only [adjmat_one]
    intro hc
    simp only [coefOf]
    rw [if_pos hc, if_pos (by decide), c2]

/-! ### The data passed in -/

/-- C81 (the part that holds). If no variable passes the first test against another one, the array passed in is not changed. The full
property asks this always; see `c81_false`. -/
theorem c81_partial (hE : E.Right) {data : Nat → Col} {fuel : Nat} {r : Result Col F} (h : olc E fuel n data = Except.ok r)
    (h0 : ∀ x y, x < n → y < n → x ≠ y → E.geAlpha (E.pval (E.residual (data x) [data y]) (data y)) = false) : r.data = data := by
  obtain ⟨hn, s1, s2, s', lid', d1, e1, f1, d2, dd, e2, rfl, rr, f⟩ := olc_ok hE h
  have key : ∀ (l : List (Nat × Nat)), (∀ p ∈ l, p.1 < n ∧ p.2 < n ∧ p.1 ≠ p.2) →
      ∀ b, (fold1 E l (init n data, b)) = (init n data, b) := by
    intro l
    induction l with
    | nil => intro _ b; rfl
    | cons p l ih =>
      intro hp b
      obtain ⟨a1, a2, a3⟩ := hp p (by simp)
      have : step1 E (init n data) p.1 p.2 = (init n data, false) := by
        unfold step1
        split
        · simp only
          rw [if_neg (by rw [h0 _ _ a1 a2 a3]; simp)]
        · rfl
      rw [fold1_cons, this]
      simpa using ih (fun q hq => hp q (by simp [hq])) b
  have hp : pass1 E n (init n data) = (init n data, false) := key (arrangements n) (fun p hp => mem_arrangements.1 hp) false
  unfold phase1 at e1
  rw [hp] at e1
  cases e1
  exact dd

/-! ### Examples -/

/-- An environment for examples. A column is a list of numbers: the number of the variable, or (number of columns of `sub_A`, then
the variables combined). `yes1` are the pairs with `pval >= alpha` and `yes2` those with `pval >= beta`. -/
def exEnv (yes1 : List (List Nat × List Nat)) (yes2 : List (List Nat × List Nat)) : Env (List Nat) Int (List Nat × List Nat) where
  residual := fun a _ => a
  normalize := fun a => a ++ [100]
  pval := fun a b => (a, b)
  fisher := fun l => (l.headD ([], []))
  geAlpha := fun p => decide (p ∈ yes1)
  geBeta := fun p => decide (p ∈ yes2)
  zeroP := ([], [])
  cov := fun _ _ _ => 1
  cov2 := fun _ _ => 1
  start := fun _ _ _ => 1
  svdLast := fun rows => some [((rows.headD []).length : Int)]
  divLast := id
  comb := fun omega cols => (omega.headD 0).toNat :: cols.flatten
  small := fun a => decide (a = 0)
  cliques := fun V _ => [V]
  order := fun l => l.insertionSort (· ≤ ·)

/-- The columns `0`, `1`, ... -/
def exData (i : Nat) : List Nat := [i]

theorem exEnv_right (y1 y2 : List (List Nat × List Nat)) : (exEnv y1 y2).Right := by
  refine ⟨fun l _ => List.perm_insertionSort _ l, fun V u hV c hc => ?_⟩
  have : c = V := by simpa [exEnv] using hc
  subst this
  exact ⟨hV, fun i hi => hi⟩

/-- Whether the outcome is an `IndexError`. -/
def isIndex {β : Type} : Except Err β → Bool
  | .error .index => true
  | _ => false

theorem isIndex_iff {β : Type} {r : Except Err β} : isIndex r = true ↔ r = Except.error .index := by
  cases r with
  | error e => cases e <;> simp [isIndex]
  | ok a => simp [isIndex]

/-- C78 fails: with five columns there are answers of the tests for which `olc` stops with an `IndexError`: a sixth latent variable
is looked for in the array `A`, which has room for five. -/
theorem c78_false : olc (exEnv [] [([1, 2, 4], [3]), ([2, 1, 3], [4]), ([3, 4, 1, 2], [3]), ([3, 4, 0, 1], [3]), ([3, 3, 0, 1], [4])])
    11 5 exData = Except.error .index := by
  rw [← isIndex_iff]
  decide +kernel

/-- C79, the direction that holds: two observed variables that the result leaves unconnected, directly and through a latent variable,
passed a test of independence. The full statement is "two variables are unconnected exactly if a test took them to be independent";
the other direction is false (`c79_false`). -/
theorem c79_partial (hE : E.Right) {data : Nat → Col} {fuel : Nat} {r : Result Col F} (h : olc E fuel n data = Except.ok r)
    (hz : E.geBeta E.zeroP = false) {x y : Nat} (hx : x < n) (hy : y < n) (ne : x ≠ y) (h1 : r.adjmat x y = 0) (h2 : r.adjmat y x = 0)
    (h3 : ∀ l, n ≤ l → l < r.size → ¬ (r.adjmat x l = 1 ∧ r.adjmat y l = 1)) :
    (∃ (omega : List F) (cs : List Nat), E.geBeta (E.pval (E.comb omega (r.data x :: cs.map r.data)) (r.data y)) = true) ∨
    (∃ (omega : List F) (cs : List Nat), E.geBeta (E.pval (E.comb omega (r.data y :: cs.map r.data)) (r.data x)) = true) := by
  rcases c77_pairs hE h hz hx hy ne with h | h | h | ⟨l, a, b, c⟩ | h | h
  · omega
  · omega
  · omega
  · exact absurd c (h3 l a b)
  · exact Or.inl h
  · exact Or.inr h

/-- C80 fails: with every test of the kind of `c79_false` the coefficient of an arrow between two variables that the test takes to be
independent is 0 divided by something, whatever the data are; and with two variables it is 0 divided by 0. -/
theorem c80_false (hE : E.Right) (hI : E.Invariant) {data : Nat → Col} {fuel : Nat} {r : Result Col F}
    (h : olc E fuel n data = Except.ok r) : (∀ x y, x < y → y < n → E.geAlpha (E.pval (data x) (data y)) = true →
      ∃ v, r.coef x y = 0 / v) ∧ (n = 2 → r.adjmat 0 1 = 1 → r.coef 0 1 = 0 / 0) :=
  ⟨fun _ _ hxy hy hg => (c79_false hE hI h hxy hy hg).2, fun hn => by subst hn; exact (c79_two hE hI h).2.2⟩

/-- C80, the part that holds: a coefficient is reported only at an arrow. The full statement is "the coefficient of an arrow is the
estimated effect", which is false (`c80_false`). -/
theorem c80_partial (hE : E.Right) {data : Nat → Col} {fuel : Nat} {r : Result Col F} (h : olc E fuel n data = Except.ok r) {i j : Nat}
    (ha : r.adjmat i j ≠ 1) : r.coef i j = 0 := by
  obtain ⟨hn, s1, s2, s', lid', d1, e1, f1, d2, dd, e2, rfl, rr, f⟩ := olc_ok hE h
  have hc : (j, i) ∉ s'.cg := fun hc => ha (adjmat_one.2 hc)
  simp only [coefOf, hc, if_false]

/-- The part of an outcome that can be compared: the number of variables and the matrix. -/
def matrixOf {Col F : Type} : Except Err (Result Col F) → Option (List (List Nat))
  | .error _ => none
  | .ok r => some ((List.range r.size).map fun i => (List.range r.size).map fun j => r.adjmat i j)

/-- Four variables with answers for which a latent variable of 0, 1 and 2 is found. -/
def ex4 : Env (List Nat) Int (List Nat × List Nat) := exEnv [] [([1, 0, 1], [2]), ([0, 0], [3]), ([0, 1], [3])]

example : matrixOf (olc ex4 7 4 exData) =
    some [[0, 2, 0, 0, 1], [2, 0, 0, 0, 1], [0, 0, 0, 2, 1], [0, 0, 2, 0, 0], [0, 0, 0, 0, 0]] := by decide +kernel

theorem ex4_ok : ∃ r, olc ex4 7 4 exData = Except.ok r :=
  c78_small_partial (exEnv_right _ _) (by decide) (by decide) exData (by decide)

example : ∃ out, out ≠ Except.error .fuel ∧ ∀ fuel, 4 * (4 - 1) / 2 + 1 ≤ fuel → olc ex4 fuel 4 exData = out :=
  c77_ends (exEnv_right _ _) 4 exData

example : ∃ r, olc ex4 7 4 exData = Except.ok r ∧ 4 ≤ r.size ∧ ∀ i j, r.adjmat i j ≤ 2 ∧ r.adjmat i i = 0 ∧
    (r.adjmat i j = 2 → r.adjmat j i = 2 ∧ i < 4 ∧ j < 4) ∧ (r.adjmat i j = 1 → r.adjmat j i = 0 ∧ i < 4 ∧ j < r.size) := by
  obtain ⟨r, h⟩ := ex4_ok
  exact ⟨r, h, c77_graph (exEnv_right _ _) h⟩

theorem size_of {Col F : Type} {o : Except Err (Result Col F)} {r : Result Col F} {m : List (List Nat)} (h : o = Except.ok r)
    (hm : matrixOf o = some m) : r.size = m.length := by
  subst h
  simp only [matrixOf, Option.some.injEq] at hm
  rw [← hm]
  simp

/-- The latent variable 4 of the example has three children. -/
example : ∃ r, olc ex4 7 4 exData = Except.ok r ∧ ∃ x y z, x ≠ y ∧ z ≠ x ∧ z ≠ y ∧ x < 4 ∧ y < 4 ∧ z < 4 ∧
    r.adjmat x 4 = 1 ∧ r.adjmat y 4 = 1 ∧ r.adjmat z 4 = 1 := by
  obtain ⟨r, h⟩ := ex4_ok
  refine ⟨r, h, c77_latent (exEnv_right _ _) h (le_refl _) ?_⟩
  rw [size_of (m := [[0, 2, 0, 0, 1], [2, 0, 0, 0, 1], [0, 0, 0, 2, 1], [0, 0, 2, 0, 0], [0, 0, 0, 0, 0]]) h (by decide +kernel)]
  decide

/-- The account of the variables 0 and 3 of the example, which passed the test. -/
example : ∃ r, olc ex4 7 4 exData = Except.ok r ∧ (r.adjmat 0 3 = 2 ∨ r.adjmat 0 3 = 1 ∨ r.adjmat 3 0 = 1 ∨
    (∃ l, 4 ≤ l ∧ l < r.size ∧ r.adjmat 0 l = 1 ∧ r.adjmat 3 l = 1) ∨
    (∃ (omega : List Int) (cs : List Nat), ex4.geBeta (ex4.pval (ex4.comb omega (r.data 0 :: cs.map r.data)) (r.data 3)) = true) ∨
    (∃ (omega : List Int) (cs : List Nat), ex4.geBeta (ex4.pval (ex4.comb omega (r.data 3 :: cs.map r.data)) (r.data 0)) = true)) := by
  obtain ⟨r, h⟩ := ex4_ok
  exact ⟨r, h, c77_pairs (exEnv_right _ _) h (by decide) (by decide) (by decide) (by decide)⟩

example : olc ex4 3 1 exData = Except.error .exception := c78_one exData (by decide)

/-- A test of the kind assumed in `c79_false`: the columns are numbers, shifts and scales are ignored, and the test takes two
columns to be independent if their sum is odd. -/
def exInv : Env Nat Int Nat where
  residual := fun a _ => a
  normalize := fun a => a
  pval := fun a b => a + b
  fisher := fun l => l.headD 0
  geAlpha := fun p => decide (p % 2 = 1)
  geBeta := fun p => decide (p = 100)
  zeroP := 0
  cov := fun _ _ _ => 1
  cov2 := fun _ _ => 1
  start := fun _ _ _ => 1
  svdLast := fun _ => none
  divLast := id
  comb := fun _ _ => 0
  small := fun a => decide (a = 0)
  cliques := fun V _ => [V]
  order := fun l => l

theorem exInv_right : exInv.Right := by
  refine ⟨fun l _ => List.Perm.refl _, fun V u hV c hc => ?_⟩
  have : c = V := by simpa [exInv] using hc
  subst this
  exact ⟨hV, fun i hi => hi⟩

theorem exInv_inv : exInv.Invariant := ⟨fun _ _ _ => rfl, fun _ _ => rfl, fun a b => Nat.add_comm a b⟩

/-- The variables 0 and 1, and 1 and 2, are taken to be independent and are joined by arrows; 0 and 2 are dependent and stay
undirected. -/
example : matrixOf (olc exInv 4 3 id) = some [[0, 1, 2], [0, 0, 1], [2, 0, 0]] := by decide +kernel

example : ∃ r, olc exInv 4 3 id = Except.ok r ∧ r.adjmat 0 1 = 1 ∧ ∃ v, r.coef 0 1 = 0 / v := by
  obtain ⟨r, h⟩ := c78_small_partial (n := 3) exInv_right (by decide) (by decide) id (fuel := 4) (by decide)
  exact ⟨r, h, c79_false exInv_right exInv_inv h (by decide) (by decide) (by decide)⟩

example : ∃ r, olc exInv 2 2 id = Except.ok r ∧ r.size = 2 ∧ r.adjmat 1 0 ≠ 1 ∧ (r.adjmat 0 1 = 1 → r.coef 0 1 = 0 / 0) := by
  obtain ⟨r, h⟩ := c78_small_partial (n := 2) exInv_right (by decide) (by decide) id (fuel := 2) (by decide)
  exact ⟨r, h, c79_two exInv_right exInv_inv h⟩

example : matrixOf (olc exInv 2 2 id) = some [[0, 1], [0, 0]] := by decide +kernel

example : ∃ r, olc exInv 2 2 id = Except.ok r ∧ r.adjmat 0 1 = 1 ∧ r.coef 0 1 = 0 / 0 := by
  obtain ⟨r, h⟩ := c78_small_partial (n := 2) exInv_right (by decide) (by decide) id (fuel := 2) (by decide)
  have h1 := (c79_false exInv_right exInv_inv h (x := 0) (y := 1) (by decide) (by decide) (by decide)).1
  exact ⟨r, h, h1, (c80_false exInv_right exInv_inv h).2 rfl h1⟩

example : ∃ r, olc exInv 4 3 id = Except.ok r ∧ r.coef 2 1 = 0 := by
  obtain ⟨r, h⟩ := c78_small_partial (n := 3) exInv_right (by decide) (by decide) id (fuel := 4) (by decide)
  refine ⟨r, h, c80_partial exInv_right h ?_⟩
  have hm : ((olc exInv 4 3 id).map fun r => r.adjmat 2 1) = Except.ok 0 := by decide +kernel
  rw [h] at hm
  have e : r.adjmat 2 1 = 0 := by simpa [Except.map] using hm
  rw [e]
  decide

/-- The variables 0 and 2 are removed from each other and stay unconnected. -/
def ex3 : Env (List Nat) Int (List Nat × List Nat) := exEnv [] [([0, 0], [2])]

example : matrixOf (olc ex3 7 3 exData) = some [[0, 2, 0], [2, 0, 2], [0, 2, 0]] := by decide +kernel

example : ∃ r, olc ex3 7 3 exData = Except.ok r ∧
    ((∃ (omega : List Int) (cs : List Nat), ex3.geBeta (ex3.pval (ex3.comb omega (r.data 0 :: cs.map r.data)) (r.data 2)) = true) ∨
    (∃ (omega : List Int) (cs : List Nat), ex3.geBeta (ex3.pval (ex3.comb omega (r.data 2 :: cs.map r.data)) (r.data 0)) = true)) := by
  obtain ⟨r, h⟩ := c78_small_partial (n := 3) (exEnv_right [] [([0, 0], [2])]) (by decide) (by decide) exData (fuel := 7) (by decide)
  have hs := size_of (m := [[0, 2, 0], [2, 0, 2], [0, 2, 0]]) h (by decide +kernel)
  have hm : ((olc ex3 7 3 exData).map fun r => (r.adjmat 0 2, r.adjmat 2 0)) = Except.ok (0, 0) := by decide +kernel
  have h' : olc ex3 7 3 exData = Except.ok r := h
  rw [h'] at hm
  have e : r.adjmat 0 2 = 0 ∧ r.adjmat 2 0 = 0 := by simpa [Except.map] using hm
  refine ⟨r, h, c79_partial (exEnv_right _ _) h (by decide) (by decide) (by decide) (by decide) e.1 e.2 ?_⟩
  intro l h1 h2
  simp at hs
  omega

/-- C81 fails: the array passed in is overwritten. Here column 0 of the caller's data is replaced by its normalised form. -/
theorem c81_false : ∃ r, olc (exEnv [([0], [1])] []) 2 2 exData = Except.ok r ∧ r.data 0 = [0, 100] ∧ r.data 0 ≠ exData 0 := by
  obtain ⟨r, h⟩ := c78_small_partial (n := 2) (exEnv_right [([0], [1])] []) (by decide) (by decide) exData (fuel := 2) (by decide)
  have h' : ((olc (exEnv [([0], [1])] []) 2 2 exData).map fun r => r.data 0) = Except.ok [0, 100] := by decide +kernel
  rw [h] at h'
  have e : r.data 0 = [0, 100] := by simpa [Except.map] using h'
  exact ⟨r, h, e, by rw [e]; decide⟩

example : ∃ r, olc ex4 7 4 exData = Except.ok r ∧ r.data = exData := by
  obtain ⟨r, h⟩ := ex4_ok
  exact ⟨r, h, c81_partial (exEnv_right _ _) h (by intros; rfl)⟩

end Cdmir.Olc
