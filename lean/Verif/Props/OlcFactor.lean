import Verif.Spec.Factor
import Verif.Lemmas.Olc
import Mathlib.Tactic.LinearCombination
import Mathlib.Tactic.FieldSimp

/-! C168: olc finds one latent factor behind three columns, with the loads up to sign. -/

set_option linter.unusedSectionVars false

namespace Cdmir.Olc
open BigOperators

variable {n : Nat} {P : Type} {M : Factor n} {eps : ℝ} {E : Env (Form n) ℝ P}

theorem Factor.cov_columns (M : Factor n) {i j : Nat} (hij : i ≠ j) : M.cov (M.column i) (M.column j) = M.load i * M.load j * M.var none := by
  unfold Factor.cov
  rw [Fintype.sum_option, Finset.sum_eq_zero]
  · simp only [Factor.column]
    ring
  · intro k _
    simp only [Factor.column]
    by_cases h : k.val = i
    · rw [if_neg (fun e => hij (h ▸ e)), mul_zero]
    · rw [if_neg h, mul_zero, zero_mul]

theorem Factor.cum_columns (M : Factor n) {i j : Nat} (hij : i ≠ j) :
    M.cum4 (M.column i) (M.column j) (M.column j) (M.column j) = M.load i * M.load j ^ 3 * M.cum none ∧
    M.cum4 (M.column i) (M.column i) (M.column j) (M.column j) = M.load i ^ 2 * M.load j ^ 2 * M.cum none := by
  unfold Factor.cum4
  constructor
  · rw [Fintype.sum_option, Finset.sum_eq_zero]
    · simp only [Factor.column]
      ring
    · intro k _
      simp only [Factor.column]
      by_cases h : k.val = i
      · rw [if_neg (fun e => hij (h ▸ e)), mul_zero]
      · rw [if_neg h, mul_zero, zero_mul, zero_mul, zero_mul]
  · rw [Fintype.sum_option, Finset.sum_eq_zero]
    · simp only [Factor.column]
      ring
    · intro k _
      simp only [Factor.column]
      by_cases h : k.val = i
      · rw [if_neg (fun e => hij (h ▸ e)), mul_zero]
      · rw [if_neg h]
        ring

section ideal
variable (hM : M.Good) (hE : Ideal M eps E)
include hM hE

/-- The load that is found first. -/
theorem start_load {x z : Nat} (hx : x < n) (hz : z < n) (hxz : x ≠ z) :
    E.start (E.cov2 (M.column z) (M.column x)) (M.column x) (M.column z) = |M.load z| * Real.sqrt (M.var none) := by
  have h1 := hM.load x hx
  have h2 := hM.load z hz
  have h3 := hM.cum
  rw [hE.start, hE.cov2, M.cov_columns hxz.symm, (M.cum_columns hxz).1, (M.cum_columns hxz).2]
  have : M.load z * M.load x * M.var none * (M.load x * M.load z ^ 3 * M.cum none) / (M.load x ^ 2 * M.load z ^ 2 * M.cum none) = M.load z ^ 2 * M.var none := by
    field_simp
  rw [this, abs_of_nonneg (mul_nonneg (sq_nonneg _) hM.var.le), Real.sqrt_mul (sq_nonneg _), Real.sqrt_sq_eq_abs]

theorem dependent {x y : Nat} (hx : x < n) (hy : y < n) {w : ℝ} (hw : w ≠ 0) : ¬ ∀ s, (fun s => w * M.column x s) s = 0 ∨ M.column y s = 0 := by
  intro h
  rcases h none with h | h
  · exact mul_ne_zero hw (hM.load x hx) h
  · exact hM.load y hy h

theorem alpha_false {x y : Nat} (hx : x < n) (hy : y < n) : E.geAlpha (E.pval (M.column x) (M.column y)) = false := by
  rw [Bool.eq_false_iff, ne_eq, hE.alpha]
  intro h
  exact dependent hM hE hx hy one_ne_zero fun s => by simpa using h s

/-- A single column is taken as it is, so it is dependent on another one. -/
theorem surr_one (A : Nat → Nat → ℝ) {x y : Nat} (hx : x < n) (hy : y < n) (exo : List Nat) : E.geBeta (surrPval E M.column A [x] exo y) = false := by
  obtain ⟨ω, h1, h2, h3, -⟩ := hE.svd ([x].map fun i => exo.map fun j => A i j) exo.length (by simp) (by simp)
  unfold surrPval surrReg
  simp only [h1, Option.isSome_none, Bool.false_eq_true, if_false]
  rw [Bool.eq_false_iff, ne_eq, hE.beta]
  rw [List.length_map, List.length_singleton, List.length_eq_one_iff] at h2
  obtain ⟨w, rfl⟩ := h2
  have hw : w ≠ 0 := by
    rintro rfl
    simp at h3
  intro h
  refine dependent hM hE hx hy hw fun s => ?_
  have := h s
  rw [hE.comb] at this
  simpa using this

/-- Two columns with loads that are right up to a common factor are combined to a column without the factor. -/
theorem surr_two (A : Nat → Nat → ℝ) {l x y z : Nat} {k : ℝ} (hk : k ≠ 0) (hx : A x l = k * M.load x) (hy : A y l = k * M.load y) (hxz : x ≠ z) (hyz : y ≠ z) :
    E.geBeta (surrPval E M.column A [x, y] [l] z) = true := by
  obtain ⟨ω, h1, h2, -, h4⟩ := hE.svd ([x, y].map fun i => [l].map fun j => A i j) 1 (by simp) (by simp)
  unfold surrPval surrReg
  simp only [h1, Option.isSome_none, Bool.false_eq_true, if_false]
  rw [hE.beta]
  rw [List.length_map, List.length_cons, List.length_singleton, List.length_eq_two] at h2
  obtain ⟨p, q, rfl⟩ := h2
  have h5 := h4 (by simp) 0 (by simp)
  simp only [List.map_cons, List.map_nil, List.zipWith_cons_cons, List.zipWith_nil_left, List.sum_cons, List.sum_nil, List.getD_cons_zero, add_zero, hx, hy] at h5
  have h6 : p * M.load x + q * M.load y = 0 := by
    refine (mul_eq_zero.1 (?_ : k * (p * M.load x + q * M.load y) = 0)).resolve_left hk
    linear_combination h5
  rintro (_ | j)
  · left
    rw [hE.comb]
    simpa [Factor.column] using h6
  · by_cases hj : j.val = z
    · left
      rw [hE.comb]
      simp [Factor.column, hj, Ne.symm hxz, Ne.symm hyz]
    · right
      simp [Factor.column, hj]

/-- The first two phases change nothing. -/
theorem phases12 {n0 : Nat} (hn : n = n0 + 2) (fuel : Nat) (s : St (Form n)) (hs : s.data = M.column) (hu : ∀ x y, hasEdge s.udg x y = true → x < n ∧ y < n) :
    phase1 E n (fuel + 1) s = .ok s ∧ phase2 E n (fuel + 1) s = .ok s := by
  have h1 : ∀ l : List (Nat × Nat), l.foldl (fun r p => let q := step1 E r.1 p.1 p.2; (q.1, r.2 || q.2)) (s, false) = (s, false) := by
    intro l
    induction l with
    | nil => rfl
    | cons p l ih =>
      have : step1 E s p.1 p.2 = (s, false) := by
        unfold step1
        split
        · rename_i he
          obtain ⟨a, b⟩ := hu _ _ he
          simp only [hs, hE.residual, alpha_false hM hE a b, Bool.false_eq_true, if_false]
        · rfl
      rw [List.foldl_cons]
      simp only [this, Bool.or_false]
      exact ih
  have h2 : ∀ l : List Nat, (∀ x ∈ l, x < n) → l.foldlM (fun r x => do let q ← step2 E n r.1 x; pure (q.1, r.2 || q.2)) (s, false) = (.ok (s, false) : Except Err _) := by
    intro l hl
    induction l with
    | nil => rfl
    | cons x l ih =>
      have : step2 E n s x = .ok (s, false) := by
        have hx : x ∈ nodes n := by
          unfold nodes
          rw [if_neg (by omega)]
          exact List.mem_range.2 (hl x List.mem_cons_self)
        unfold step2 neighbors
        rw [if_pos hx]
        simp only [pure_bind]
        split
        · rfl
        · rename_i hne
          rw [hE.fisher]
          · rfl
          · simpa using hne
          · simp only [List.mem_map, List.mem_filter]
            rintro p ⟨y, ⟨-, hy⟩, rfl⟩
            rw [hs, hE.residual]
            exact alpha_false hM hE (hu _ _ hy).1 (hu _ _ hy).2
      rw [List.foldlM_cons]
      simp only [this]
      exact ih fun x hx => hl x (List.mem_cons_of_mem _ hx)
  constructor
  · unfold phase1 pass1
    rw [h1]
    rfl
  · unfold phase2 pass2
    rw [h2 _ fun x hx => List.mem_range.1 hx]
    rfl

theorem order_nil : E.order [] = [] := List.perm_nil.1 (hE.order [] List.nodup_nil)

theorem order_one (x : Nat) : E.order [x] = [x] := List.perm_singleton.1 (hE.order [x] (List.nodup_singleton x))

/-- The first three columns tried are recognised as children of one latent variable. -/
theorem tryLatent_first (he : 0 < eps) (hl : ∀ i, i < n → eps ≤ |M.load i| * Real.sqrt (M.var none)) {s : St3 ℝ} {l x y z : Nat} (hA : ∀ i, s.A i l = 0)
    (hs : ∀ i, s.surrogate i = []) (hx' : ∀ i, s.exogenous i = []) (hx : x < n) (hz : z < n) (hxy : x ≠ y) (hxz : x ≠ z) (hyz : y ≠ z) :
    ∃ A k, |k| = Real.sqrt (M.var none) ∧ A x l = k * M.load x ∧ A y l = k * M.load y ∧ A z l = k * M.load z ∧
      (∀ i, i ≠ x → i ≠ y → i ≠ z → A i l = 0) ∧ tryLatent E M.column l s x y z = (⟨removeEdge (removeEdge s.udg x z) y z, addArc (addArc (addArc s.cg l x) l y) l z, A,
        insertAt (insertAt s.surrogate x z) y z, insertAt (insertAt (insertAt s.exogenous x l) y l) z l, true, s.orient⟩, true) := by
  have hv := Real.sqrt_pos.2 hM.var
  have hz0 := hM.load z hz
  set t := |M.load z| * Real.sqrt (M.var none) with ht
  have htp : 0 < t := mul_pos (abs_pos.2 hz0) hv
  have ht2 : t * t = M.load z ^ 2 * M.var none := by
    rw [ht, mul_mul_mul_comm, abs_mul_abs_self, Real.mul_self_sqrt hM.var.le, sq]
  have hk : |t / M.load z| = Real.sqrt (M.var none) := by
    rw [abs_div, abs_of_pos htp, ht, mul_comm, mul_div_assoc, div_self (abs_ne_zero.2 hz0), mul_one]
  have hload : ∀ i, i ≠ z → E.cov2 (M.column z) (M.column i) / t = t / M.load z * M.load i := by
    intro i hi
    rw [hE.cov2, M.cov_columns hi.symm]
    field_simp
    linear_combination (-M.load i) * ht2
  have hsmall : ∀ i, i < n → E.small (t / M.load z * M.load i) = false := by
    intro i hi
    rw [Bool.eq_false_iff, ne_eq, hE.small, not_lt, abs_mul, hk, mul_comm]
    exact hl i hi
  have hs0 : E.small 0 = true := by
    rw [hE.small, abs_zero]
    exact he
  have ht1 : E.small t = false := by
    have := hsmall z hz
    rwa [div_mul_cancel₀ _ hz0] at this
  have hcs : E.order (twoOf (s.surrogate x) (s.surrogate y) (s.surrogate z)) = [] := by
    rw [hs, hs, hs]
    exact order_nil hM hE
  have hce : E.order (twoOf (s.exogenous x) (s.exogenous y) (s.exogenous z)) = [] := by
    rw [hx', hx', hx']
    exact order_nil hM hE
  have hlat : ∃ A b, latentA E M.column (M.column z) s.A l x y z = (A, b) ∧ A x l = t / M.load z * M.load x ∧ A y l = t / M.load z * M.load y ∧
      A z l = t / M.load z * M.load z ∧ ∀ i, i ≠ x → i ≠ y → i ≠ z → A i l = 0 := by
    refine ⟨(latentA E M.column (M.column z) s.A l x y z).1, (latentA E M.column (M.column z) s.A l x y z).2, rfl, ?_⟩
    have e1 : (latentA E M.column (M.column z) s.A l x y z).1 = setA (setA (setA s.A z l t) x l (t / M.load z * M.load x)) y l (t / M.load z * M.load y) := by
      unfold latentA
      have a1 : setA s.A z l t x l = 0 := by rw [setA_ne _ _ (fun h => hxz h.1), hA]
      have a2 : setA s.A z l t z l = t := by simp [setA]
      have a3 : setA (setA s.A z l t) x l (t / M.load z * M.load x) y l = 0 := by
        rw [setA_ne _ _ (fun h => hxy h.1.symm), setA_ne _ _ (fun h => hyz h.1), hA]
      have a4 : setA (setA s.A z l t) x l (t / M.load z * M.load x) z l = t := by
        rw [setA_ne _ _ (fun h => hxz h.1.symm), a2]
      simp only [hA, hs0, Bool.not_true, Bool.false_eq_true, if_false, if_true, start_load hM hE hx hz hxz, ← ht, a1, a2, hload x hxz, a3, a4, hload y hyz]
    rw [e1]
    refine ⟨?_, ?_, ?_, fun i h1 h2 h3 => ?_⟩
    · rw [setA_ne _ _ (fun h => hxy h.1)]
      simp [setA]
    · simp [setA]
    · rw [setA_ne _ _ (fun h => hyz h.1.symm), setA_ne _ _ (fun h => hxz h.1.symm), div_mul_cancel₀ _ hz0]
      simp [setA]
    · rw [setA_ne _ _ (fun h => h2 h.1), setA_ne _ _ (fun h => h1 h.1), setA_ne _ _ (fun h => h3 h.1), hA]
  obtain ⟨A, b, h1, h2, h3, h4, h5⟩ := hlat
  refine ⟨A, t / M.load z, hk, h2, h3, h4, h5, ?_⟩
  unfold tryLatent
  rw [hcs, hce]
  simp only [List.isEmpty_nil, if_true, h1, List.nil_append]
  rw [if_pos (surr_two hM hE A (div_ne_zero htp.ne' hz0) h2 h3 hxz hyz)]

/-- A pair that has no edge is passed over. -/
theorem step3_none {cov : Nat → Nat → ℝ} {l : Nat} {po : List Nat} {s : St3 ℝ} {x y : Nat} (h : hasEdge s.udg x y = false) :
    step3 E M.column cov n l po s (x, y) = .ok s := by
  unfold step3
  rw [if_neg (by simp [h])]
  rfl

end ideal

theorem three_arcs {a b c l i j : Nat} : (j, i) ∈ addArc (addArc (addArc [] l a) l b) l c ↔ (i = a ∨ i = b ∨ i = c) ∧ j = l := by
  rw [mem_addArc, mem_addArc, mem_addArc]
  simp only [List.not_mem_nil, false_or, Prod.mk.injEq]
  constructor
  · rintro ((⟨h, h'⟩ | ⟨h, h'⟩) | ⟨h, h'⟩)
    · exact ⟨Or.inl h', h⟩
    · exact ⟨Or.inr (Or.inl h'), h⟩
    · exact ⟨Or.inr (Or.inr h'), h⟩
  · rintro ⟨h | h | h, h'⟩
    · exact Or.inl (Or.inl ⟨h', h⟩)
    · exact Or.inl (Or.inr ⟨h', h⟩)
    · exact Or.inr ⟨h', h⟩

theorem three_gone {u : List (Nat × Nat)} {a b c i j : Nat} (hij : i ≠ j) (hi : i = a ∨ i = b ∨ i = c) (hj : j = a ∨ j = b ∨ j = c) :
    ¬ hasEdge (removeEdge (removeEdge (removeEdge u a c) b c) a b) i j = true := by
  intro h
  have h1 := hasEdge_remove.1 h
  have h2 := hasEdge_remove.1 h1.1
  have h3 := hasEdge_remove.1 h2.1
  rcases hi with rfl | rfl | rfl <;> rcases hj with rfl | rfl | rfl <;> simp at hij h1 h2 h3

/-- C168. Three columns of one latent factor, with noise of their own. With routines that answer as from the true distribution, and loads of at least `EPS`
in units of the factor, olc returns the graph in which the three columns are the children of one latent variable, the fourth in the matrix. Their
coefficients are the loads times the deviation of the factor, up to a common sign. -/
theorem c168_three {M : Factor 3} {E : Env (Form 3) ℝ P} (hM : M.Good) (hE : Ideal M eps E) (he : 0 < eps)
    (hl : ∀ i, i < 3 → eps ≤ |M.load i| * Real.sqrt (M.var none)) (fuel : Nat) :
    ∃ r, olc E (fuel + 2) 3 M.column = .ok r ∧ r.size = 4 ∧ (∀ i j, r.adjmat i j = if i < 3 ∧ j = 3 then 1 else 0) ∧
      ∃ k, |k| = Real.sqrt (M.var none) ∧ ∀ i j, r.coef i j = if i < 3 ∧ j = 3 then k * M.load i else 0 := by
  -- the columns in the order in which the third phase reads them
  have hnod : (E.cliques (nodes 3) (pairs (List.range 3))).foldl union [] |>.Nodup := by
    have : ∀ (l : List (List Nat)) (a : List Nat), a.Nodup → (∀ c ∈ l, c.Nodup) → (l.foldl union a).Nodup := by
      intro l
      induction l with
      | nil => exact fun a ha _ => ha
      | cons c l ih => exact fun a ha hl => ih _ (union_nodup ha (hl c (by simp))) fun d hd => hl d (by simp [hd])
    exact this _ _ List.nodup_nil (hE.cliques _ _).1
  have hmem : ∀ x, x ∈ (E.cliques (nodes 3) (pairs (List.range 3))).foldl union [] ↔ x < 3 := by
    have : ∀ (l : List (List Nat)) (a : List Nat) (x : Nat), x ∈ l.foldl union a ↔ x ∈ a ∨ ∃ c ∈ l, x ∈ c := by
      intro l
      induction l with
      | nil => simp
      | cons c l ih =>
        intro a x
        rw [List.foldl_cons, ih, mem_union]
        simp [or_assoc]
    intro x
    rw [this, (hE.cliques _ _).2]
    simp [nodes]
  obtain ⟨a, b, c, hpo⟩ : ∃ a b c, partialObserved E 3 (pairs (List.range 3)) = [a, b, c] := by
    have hp := hE.order _ hnod
    have h3 : ((E.cliques (nodes 3) (pairs (List.range 3))).foldl union []).Perm (List.range 3) :=
      (List.perm_ext_iff_of_nodup hnod List.nodup_range).2 fun x => by rw [hmem, List.mem_range]
    exact List.length_eq_three.1 (hp.trans h3).length_eq
  have hpn : (partialObserved E 3 (pairs (List.range 3))).Nodup := (hE.order _ hnod).nodup_iff.2 hnod
  have hpm : ∀ x, x ∈ partialObserved E 3 (pairs (List.range 3)) ↔ x < 3 := fun x => by
    rw [← hmem x]
    exact (hE.order _ hnod).mem_iff
  rw [hpo] at hpn hpm
  simp only [List.nodup_cons, List.mem_cons, List.not_mem_nil, or_false, not_or, not_false_eq_true, List.nodup_nil, and_true] at hpn
  obtain ⟨⟨hab, hac⟩, hbc⟩ := hpn
  have ha : a < 3 := (hpm a).1 (by simp)
  have hb : b < 3 := (hpm b).1 (by simp)
  have hc : c < 3 := (hpm c).1 (by simp)
  have hudg : ∀ x y, x < 3 → y < 3 → (hasEdge (pairs (List.range 3)) x y = true ↔ x ≠ y) := by
    have : ∀ x < 3, ∀ y < 3, (hasEdge (pairs (List.range 3)) x y = true ↔ x ≠ y) := by decide
    exact fun x y hx hy => this x hx y hy
  have hudg' : ∀ x y, hasEdge (pairs (List.range 3)) x y = true → x < 3 ∧ y < 3 := by
    intro x y h
    simp [hasEdge, pairs, List.range_succ] at h
    omega
  obtain ⟨p1, p2⟩ := phases12 hM hE (n0 := 1) rfl (fuel + 1) ⟨M.column, pairs (List.range 3), []⟩ rfl hudg'
  -- the first pass
  set cov := E.cov ((List.range 3).map M.column)
  let s0 : St3 ℝ := ⟨pairs (List.range 3), [], fun _ _ => 0, fun _ => [], fun _ => [], false, false⟩
  obtain ⟨A, k, hk, hAa, hAb, hAc, -, htry⟩ := tryLatent_first hM hE he hl (s := s0) (l := 3) (fun _ => rfl) (fun _ => rfl) (fun _ => rfl) ha hc hab hac hbc
  have hk0 : k ≠ 0 := by
    rintro rfl
    rw [abs_zero] at hk
    exact (Real.sqrt_pos.2 hM.var).ne hk
  let s1 : St3 ℝ := ⟨removeEdge (removeEdge s0.udg a c) b c, addArc (addArc (addArc s0.cg 3 a) 3 b) 3 c, A, insertAt (insertAt s0.surrogate a c) b c,
    insertAt (insertAt (insertAt s0.exogenous a 3) b 3) c 3, true, false⟩
  have hs0ab : hasEdge s0.udg a b = true := (hudg a b ha hb).2 hab
  have hs0ac : hasEdge s0.udg a c = true := (hudg a c ha hc).2 hac
  have hne : ∀ {x y : Nat}, ¬ hasEdge s1.udg x y = true → hasEdge s1.udg x y = false := fun h => Bool.eq_false_iff.2 h
  have hs1ab : hasEdge s1.udg a b = true := by
    refine hasEdge_remove.2 ⟨hasEdge_remove.2 ⟨hs0ab, ?_⟩, ?_⟩ <;> omega
  have hs1ac : hasEdge s1.udg a c = false := hne fun h => (hasEdge_remove.1 (hasEdge_remove.1 h).1).2 (Or.inl ⟨rfl, rfl⟩)
  have hs1bc : hasEdge s1.udg b c = false := hne fun h => (hasEdge_remove.1 h).2 (Or.inl ⟨rfl, rfl⟩)
  have hstep1 : step3 E M.column cov 3 3 [a, b, c] s0 (a, b) = .ok s1 := by
    unfold step3
    rw [if_pos hs0ab]
    have hpt : pairTest E M.column cov s0 a b = (s0, a, b) := by
      unfold pairTest
      have e1 : E.order (inter (s0.surrogate a) (s0.surrogate b)) = [] := order_nil hM hE
      have e2 : E.order (inter (s0.exogenous a) (s0.exogenous b)) = [] := order_nil hM hE
      simp only [e1, e2, List.append_nil, surr_one hM hE s0.A ha hb [], Bool.false_eq_true, if_false, List.isEmpty_nil, Bool.not_true, Bool.and_false]
    simp only [hpt]
    unfold latentLoop
    rw [if_pos (Or.inl rfl)]
    unfold latentLoop
    rw [if_pos (Or.inr rfl)]
    unfold latentLoop
    rw [if_neg (by omega), if_neg (by simp [hs0ac]), if_neg (by omega)]
    simp only [htry, if_true]
    rfl
  have hpairs : pairs [a, b, c] = [(a, b), (a, c), (b, c)] := rfl
  -- the second pass
  let s1' : St3 ℝ := { s1 with latent := false, orient := false }
  let s2 : St3 ℝ := { s1' with udg := removeEdge s1.udg a b }
  have hstep2 : step3 E M.column cov 3 4 [a, b, c] s1' (a, b) = .ok s2 := by
    unfold step3
    rw [if_pos hs1ab]
    have es : s1'.surrogate a = [c] ∧ s1'.surrogate b = [c] := by
      constructor <;> simp [s1', s1, s0, insertAt, Function.update, hab, Ne.symm hab, union]
    have ee : s1'.exogenous a = [3] ∧ s1'.exogenous b = [3] := by
      constructor <;> simp [s1', s1, s0, insertAt, Function.update, hab, hac, hbc, Ne.symm hab, union]
    have hpt : pairTest E M.column cov s1' a b = (s2, a, b) := by
      unfold pairTest
      have e1 : E.order (inter (s1'.surrogate a) (s1'.surrogate b)) = [c] := by
        rw [es.1, es.2]
        simpa [inter] using order_one hM hE c
      have e2 : E.order (inter (s1'.exogenous a) (s1'.exogenous b)) = [3] := by
        rw [ee.1, ee.2]
        simpa [inter] using order_one hM hE 3
      have e3 : E.geBeta (surrPval E M.column s1'.A ([a] ++ [c]) [3] b) = true := surr_two hM hE A hk0 hAa hAc hab (Ne.symm hbc)
      have e4 : hasEdge (removeEdge s1'.udg a b) a b = false := Bool.eq_false_iff.2 fun h => (hasEdge_remove.1 h).2 (Or.inl ⟨rfl, rfl⟩)
      simp only [e1, e2, e3, if_true, e4, Bool.false_and, Bool.false_eq_true, if_false]
      rfl
    have n1 : hasEdge s2.udg a c = false := Bool.eq_false_iff.2 fun h => by
      rw [(hasEdge_remove.1 h).1] at hs1ac
      cases hs1ac
    have n2 : hasEdge s2.udg b c = false := Bool.eq_false_iff.2 fun h => by
      rw [(hasEdge_remove.1 h).1] at hs1bc
      cases hs1bc
    simp only [hpt]
    unfold latentLoop
    rw [if_pos (Or.inl rfl)]
    unfold latentLoop
    rw [if_pos (Or.inr rfl)]
    unfold latentLoop
    rw [if_neg (by omega), if_pos (by simp [n1, n2])]
    rfl
  have n1 : hasEdge s2.udg a c = false := Bool.eq_false_iff.2 fun h => by
    rw [(hasEdge_remove.1 h).1] at hs1ac
    cases hs1ac
  have n2 : hasEdge s2.udg b c = false := Bool.eq_false_iff.2 fun h => by
    rw [(hasEdge_remove.1 h).1] at hs1bc
    cases hs1bc
  have hf1 : (pairs [a, b, c]).foldlM (step3 E M.column cov 3 3 [a, b, c]) s0 = .ok s1 := by
    rw [hpairs]
    simp only [List.foldlM_cons, List.foldlM_nil, hstep1, step3_none hM hE hs1ac, step3_none hM hE hs1bc, bind, Except.bind, pure, Except.pure]
  have hf2 : (pairs [a, b, c]).foldlM (step3 E M.column cov 3 4 [a, b, c]) s1' = .ok s2 := by
    rw [hpairs]
    simp only [List.foldlM_cons, List.foldlM_nil, hstep2, step3_none hM hE n1, step3_none hM hE n2, bind, Except.bind, pure, Except.pure]
  have hp2 : phase3 E M.column cov 3 [a, b, c] (fuel + 1) 1 s1 = .ok (s2, 1) := by
    change ((pairs [a, b, c]).foldlM (step3 E M.column cov 3 4 [a, b, c]) s1' >>= fun s' =>
      if s'.latent || s'.orient then phase3 E M.column cov 3 [a, b, c] fuel (if s'.latent then 1 + 1 else 1) s' else pure (s', 1)) = _
    rw [hf2]
    rfl
  have hph : phase3 E M.column cov 3 [a, b, c] (fuel + 2) 0 s0 = .ok (s2, 1) := by
    change ((pairs [a, b, c]).foldlM (step3 E M.column cov 3 3 [a, b, c]) s0 >>= fun s' =>
      if s'.latent || s'.orient then phase3 E M.column cov 3 [a, b, c] (fuel + 1) (if s'.latent then 0 + 1 else 0) s' else pure (s', 0)) = _
    rw [hf1]
    exact hp2
  have hcg : ∀ i j, (j, i) ∈ s2.cg ↔ i < 3 ∧ j = 3 := by
    intro i j
    have h := hpm i
    simp only [List.mem_cons, List.not_mem_nil, or_false] at h
    rw [← h]
    exact three_arcs
  have hno : ∀ i j, hasEdge s2.udg i j = false := by
    intro i j
    refine Bool.eq_false_iff.2 fun h => ?_
    have h3 := hasEdge_remove.1 (hasEdge_remove.1 (hasEdge_remove.1 h).1).1
    obtain ⟨hi, hj⟩ := hudg' i j h3.1
    have hij := (hudg i j hi hj).1 h3.1
    have hi' := (hpm i).2 hi
    have hj' := (hpm j).2 hj
    simp only [List.mem_cons, List.not_mem_nil, or_false] at hi' hj'
    exact three_gone hij hi' hj' h
  have hload : ∀ i, i < 3 → A i 3 = k * M.load i := by
    intro i hi
    have hi' := (hpm i).2 hi
    simp only [List.mem_cons, List.not_mem_nil, or_false] at hi'
    rcases hi' with rfl | rfl | rfl
    · exact hAa
    · exact hAb
    · exact hAc
  refine ⟨⟨1 + 3, adjmatOf s2.udg s2.cg, coefOf 3 s2.cg s2.A, M.column⟩, ?_, rfl, ?_, k, hk, ?_⟩
  · unfold olc
    rw [p1]
    simp only [bind, Except.bind]
    rw [p2]
    simp only [hpo]
    rw [hph]
    rfl
  · intro i j
    unfold adjmatOf
    simp only [hcg, hno, Bool.false_eq_true, if_false]
  · intro i j
    unfold coefOf
    simp only [hcg]
    by_cases h : i < 3 ∧ j = 3
    · rw [if_pos h, if_pos h, if_neg (by omega), h.2]
      exact hload i h.1
    · rw [if_neg h, if_neg h]

end Cdmir.Olc
