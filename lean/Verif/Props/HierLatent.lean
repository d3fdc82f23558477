import Verif.Props.HierOmega
import Verif.Spec.LatentOrder

/-! C167: `LearnCausalOrder` puts the latent variables of a linear model in a causal order, if each cluster is a pair. -/

set_option linter.unusedSectionVars false

namespace Cdmir.Hier
open BigOperators Matrix

variable {n p : Nat} {L : Type} [Fintype L] [DecidableEq L]

/-- An ideal estimate of mutual information: it is zero for a sum of columns and a column exactly if they have no source in common. For sources that are
independent and not Gaussian this is when the two are independent, by the theorem of Darmois and Skitovich. -/
def Detects (M : LinLat L (Fin p)) (data : Fin p → Fin n → ℝ) (I : (Fin n → ℝ) → (Fin n → ℝ) → ℝ) : Prop :=
  ∀ (X : List (Fin p)) (ω : Fin X.length → ℝ) (z : Fin p), 0 ≤ I (fun r => ∑ j, ω j * data (X.get j) r) (data z) ∧
    (I (fun r => ∑ j, ω j * data (X.get j) r) (data z) = 0 ↔ ∀ s, ∑ j, ω j * M.coef (X.get j) s = 0 ∨ M.coef z s = 0)

/-- Each cluster is a pair of measured variables of one latent variable, and each latent variable has exactly one cluster. -/
structure Pairs (M : LinLat L (Fin p)) (cs : List (List (Fin p))) : Prop where
  pair : ∀ c ∈ cs, ∃ u v, c = [u, v] ∧ u ≠ v ∧ M.of u = M.of v
  apart : cs.Pairwise fun c d => ∀ u ∈ c, ∀ v ∈ d, M.of u ≠ M.of v
  all : ∀ l, ∃ c ∈ cs, ∃ u ∈ c, M.of u = l

/-- The weight of a variable in a surrogate. -/
def share (X : List (Fin p)) (ω : Fin X.length → ℝ) (v : Fin p) : ℝ := ∑ j, if X.get j = v then ω j else 0

section share
variable {X : List (Fin p)} {ω : Fin X.length → ℝ}

theorem share_sum (X : List (Fin p)) (ω : Fin X.length → ℝ) (F : Fin p → ℝ) : ∑ j, ω j * F (X.get j) = ∑ v, share X ω v * F v := by
  unfold share
  simp only [Finset.sum_mul]
  rw [Finset.sum_comm]
  refine Finset.sum_congr rfl fun j _ => ?_
  rw [Finset.sum_eq_single (X.get j)]
  · rw [if_pos rfl]
  · intro v _ hv
    rw [if_neg (Ne.symm hv), zero_mul]
  · simp

theorem share_mem {v : Fin p} (h : share X ω v ≠ 0) : v ∈ X := by
  obtain ⟨j, -, hj⟩ := Finset.exists_ne_zero_of_sum_ne_zero h
  have : X.get j = v := by
    by_contra e
    exact hj (if_neg e)
  exact this ▸ List.get_mem _ _

theorem share_get (hX : X.Nodup) (j : Fin X.length) : share X ω (X.get j) = ω j := by
  unfold share
  rw [Finset.sum_eq_single j]
  · exact if_pos rfl
  · intro i _ hi
    rw [if_neg]
    intro e
    exact hi (List.nodup_iff_injective_get.1 hX e)
  · simp

variable {M : LinLat L (Fin p)} {data : Fin p → Fin n → ℝ}

/-- The covariance of a surrogate with a variable that is not part of it. -/
theorem cov_latent (hcov : ∀ u v, Tetrad.cov (data u) (data v) = M.cov u v) {z : Fin p} (hz : z ∉ X) :
    Tetrad.cov (surrogate data X ω) (data z) = M.load z * ∑ j, M.var j * M.weight (share X ω) j * M.total (M.of z) j := by
  rw [cov_surrogate]
  simp only [hcov]
  rw [share_sum X ω fun v => M.cov v z]
  have h1 : ∀ v, share X ω v * M.cov v z =
      ∑ j, M.load z * (M.var j * (share X ω v * (M.load v * M.total (M.of v) j)) * M.total (M.of z) j) := by
    intro v
    by_cases hv : share X ω v = 0
    · rw [hv]
      simp
    · have hvz : v ≠ z := fun e => hz (e ▸ share_mem hv)
      unfold LinLat.cov
      rw [Fintype.sum_sum_type]
      simp only [LinLat.source, LinLat.coef, Sum.elim_inl, Sum.elim_inr]
      have h2 : ∑ x, M.noise x * (if x = v then 1 else 0) * (if x = z then 1 else 0) = 0 := by
        refine Finset.sum_eq_zero fun x _ => ?_
        by_cases hx : x = v
        · rw [if_neg (fun e => hvz (hx ▸ e)), mul_zero]
        · rw [if_neg hx, mul_zero, zero_mul]
      rw [h2, add_zero, Finset.mul_sum]
      refine Finset.sum_congr rfl fun j _ => ?_
      ring
  simp only [h1]
  rw [Finset.sum_comm, Finset.mul_sum]
  refine Finset.sum_congr rfl fun j _ => ?_
  unfold LinLat.weight
  rw [Finset.mul_sum, Finset.sum_mul, Finset.mul_sum]

/-- When a surrogate has no source in common with a variable that is not part of it. -/
theorem detects_iff {I : (Fin n → ℝ) → (Fin n → ℝ) → ℝ} (hM : M.Good) (hI : Detects M data I) {z : Fin p} (hz : z ∉ X) :
    0 ≤ I (surrogate data X ω) (data z) ∧
      (I (surrogate data X ω) (data z) = 0 ↔ ∀ j, M.weight (share X ω) j = 0 ∨ M.total (M.of z) j = 0) := by
  have h := hI X ω z
  refine ⟨h.1, h.2.trans ?_⟩
  simp only [fun s => share_sum X ω fun v => M.coef v s]
  constructor
  · intro h j
    have := h (Sum.inl j)
    simp only [LinLat.coef, Sum.elim_inl] at this
    exact this.imp id fun e => (mul_eq_zero.1 e).resolve_left (hM.load z)
  · rintro h (j | w)
    · simp only [LinLat.coef, Sum.elim_inl]
      exact (h j).imp id fun e => by rw [e, mul_zero]
    · simp only [LinLat.coef, Sum.elim_inr]
      by_cases hw : w = z
      · left
        subst hw
        refine Finset.sum_eq_zero fun v _ => ?_
        by_cases hv : w = v
        · subst hv
          have : share X ω w = 0 := by
            by_contra h
            exact hz (share_mem h)
          rw [this, zero_mul]
        · rw [if_neg hv, mul_zero]
      · right
        rw [if_neg hw]

end share

section pairs
variable {M : LinLat L (Fin p)} {cs : List (List (Fin p))}

theorem Pairs.same (h : Pairs M cs) {c d : List (Fin p)} (hc : c ∈ cs) (hd : d ∈ cs) {u v : Fin p} (hu : u ∈ c) (hv : v ∈ d) (e : M.of u = M.of v) :
    c = d := by
  by_contra hne
  have : Std.Symm fun c d : List (Fin p) => ∀ u ∈ c, ∀ v ∈ d, M.of u ≠ M.of v := ⟨fun x y hxy a ha b hb e => hxy b hb a ha e.symm⟩
  exact h.apart.forall hc hd hne u hu v hv e

theorem Pairs.one (h : Pairs M cs) {c : List (Fin p)} (hc : c ∈ cs) {u v : Fin p} (hu : u ∈ c) (hv : v ∈ c) : M.of u = M.of v := by
  obtain ⟨a, b, rfl, -, e⟩ := h.pair c hc
  simp only [List.mem_cons, List.not_mem_nil, or_false] at hu hv
  rcases hu with rfl | rfl
  · rcases hv with rfl | rfl
    · rfl
    · exact e
  · rcases hv with rfl | rfl
    · exact e.symm
    · rfl

theorem Pairs.least (h : Pairs M cs) {l : List (List (Fin p))} (hne : l ≠ []) (hl : ∀ k ∈ l, k ∈ cs) :
    ∃ m ∈ l, ∀ k ∈ l, ∀ a ∈ m, ∀ b ∈ k, M.rank (M.of a) ≤ M.rank (M.of b) := by
  obtain ⟨r, hr⟩ := List.exists_mem_of_ne_nil l hne
  obtain ⟨m, hm, hmin⟩ := Finset.exists_min_image l.toFinset (fun k => (k.map fun v => M.rank (M.of v)).headD 0) ⟨r, List.mem_toFinset.2 hr⟩
  have hh : ∀ k ∈ l, ∀ a ∈ k, (k.map fun v => M.rank (M.of v)).headD 0 = M.rank (M.of a) := by
    intro k hk a ha
    have e := fun b => h.one (v := b) (hl k hk) ha
    obtain ⟨s, t, rfl, -⟩ := h.pair k (hl k hk)
    rw [e s List.mem_cons_self]
    rfl
  refine ⟨m, List.mem_toFinset.1 hm, fun k hk a ha b hb => ?_⟩
  have := hmin k (List.mem_toFinset.2 hk)
  rwa [hh k hk b hb, hh m (List.mem_toFinset.1 hm) a ha] at this

theorem Pairs.nodup (h : Pairs M cs) : cs.Nodup := by
  refine h.apart.imp_of_mem fun {c d} hc hd hcd e => ?_
  obtain ⟨u, v, rfl, -⟩ := h.pair c hc
  subst e
  exact hcd u (by simp) u (by simp) rfl

theorem Pairs.first (h : Pairs M cs) {k : List (Fin p)} (hk : k ∈ cs) {v : Fin p} (hv : v ∈ k.take (k.length / 2)) :
    ∃ w, k = [v, w] ∧ v ≠ w ∧ M.of v = M.of w := by
  obtain ⟨a, b, rfl, hab⟩ := h.pair k hk
  simp at hv
  subst hv
  exact ⟨b, rfl, hab⟩

theorem Pairs.second (h : Pairs M cs) {k : List (Fin p)} (hk : k ∈ cs) {v : Fin p} (hv : v ∈ k.drop (k.length / 2)) :
    ∃ w, k = [w, v] ∧ w ≠ v ∧ M.of w = M.of v := by
  obtain ⟨a, b, rfl, hab⟩ := h.pair k hk
  simp at hv
  subst hv
  exact ⟨a, rfl, hab⟩

theorem len_flat {α β : Type} {f : α → List β} : ∀ {l : List α}, (∀ k ∈ l, (f k).length = 1) → (l.flatMap f).length = l.length
  | [], _ => rfl
  | a :: l, h => by
    rw [List.flatMap_cons, List.length_append, h a List.mem_cons_self, len_flat fun k hk => h k (List.mem_cons_of_mem _ hk), List.length_cons]
    omega

variable {data : Fin p → Fin n → ℝ} {I : (Fin n → ℝ) → (Fin n → ℝ) → ℝ}
  {svd : {a b : Nat} → Matrix (Fin b) (Fin a) ℝ → Matrix (Fin a) (Fin a) ℝ}

/-- The first halves. -/
abbrev fsts (l : List (List (Fin p))) : List (Fin p) := l.flatMap fun k => k.take (k.length / 2)

/-- The second halves. -/
abbrev snds (l : List (List (Fin p))) : List (Fin p) := l.flatMap fun k => k.drop (k.length / 2)

theorem Pairs.fsts_nodup (h : Pairs M cs) {l : List (List (Fin p))} (hl : ∀ k ∈ l, k ∈ cs) (hn : l.Nodup) : (fsts l).Nodup := by
  rw [List.nodup_flatMap]
  refine ⟨fun k hk => ?_, hn.imp_of_mem fun {c d} hc hd hcd => ?_⟩
  · obtain ⟨a, b, rfl, -⟩ := h.pair k (hl k hk)
    simp
  · intro v hv hv'
    exact hcd (h.same (hl c hc) (hl d hd) (List.mem_of_mem_take hv) (List.mem_of_mem_take hv') rfl)

theorem Pairs.not_fsts (h : Pairs M cs) {l m : List (List (Fin p))} (hl : ∀ k ∈ l, k ∈ cs) (hm : ∀ k ∈ m, k ∈ cs) {z : Fin p} (hz : z ∈ snds m) :
    z ∉ fsts l := by
  intro hv
  obtain ⟨k, hk, hzk⟩ := List.mem_flatMap.1 hz
  obtain ⟨k', hk', hzk'⟩ := List.mem_flatMap.1 hv
  obtain ⟨a, rfl, ha, -⟩ := h.second (hm k hk) hzk
  obtain ⟨b, rfl, hb, -⟩ := h.first (hl k' hk') hzk'
  have := h.same (hm _ hk) (hl _ hk') (u := z) (v := z) (by simp) (by simp) rfl
  cases this
  exact ha rfl

theorem Pairs.lens (h : Pairs M cs) {l : List (List (Fin p))} (hl : ∀ k ∈ l, k ∈ cs) : (fsts l).length = l.length ∧ (snds l).length = l.length := by
  constructor
  · refine len_flat fun k hk => ?_
    obtain ⟨a, b, rfl, -⟩ := h.pair k (hl k hk)
    simp
  · refine len_flat fun k hk => ?_
    obtain ⟨a, b, rfl, -⟩ := h.pair k (hl k hk)
    simp

/-- The value of `GIN_MI`. -/
theorem ginData_ok {X Z : List (Fin p)} (hZ : Z ≠ []) {ω : Fin X.length → ℝ} (hω : getomega svd data X Z = .ok ω) :
    ginData svd I data X Z = .ok ((Z.map fun z => I (surrogate data X ω) (data z)).sum / Z.length) := by
  unfold ginData ginMI
  rw [hω]
  cases Z with
  | nil => exact absurd rfl hZ
  | cons z l => rfl

/-- What `FindRoot` computes for the cluster `c`, the other cluster `o` and the roots `K` found before. -/
theorem Pairs.gin (h : Pairs M cs) (hM : M.Good) (hcov : ∀ u v, Tetrad.cov (data u) (data v) = M.cov u v)
    (hsvd : ∀ X Z, Z.length < X.length → IsSvd (crossCov data X Z) (svd (crossCov data X Z))) (hI : Detects M data I)
    {c o : List (Fin p)} {K : List (List (Fin p))} (hl : ∀ k ∈ c :: o :: K, k ∈ cs) (hn : (c :: o :: K).Nodup)
    (hP : ∀ k ∈ K, ∀ u ∈ k, ∀ l, M.direct (M.of u) l ≠ 0 → ∃ k' ∈ K, ∃ v ∈ k', M.of v = l) :
    ∃ r, ginData svd I data (fsts (c :: o :: K)) (snds (c :: K)) = .ok r ∧ 0 ≤ r ∧
      ((∀ u ∈ c, ∀ l, M.direct (M.of u) l ≠ 0 → ∃ k' ∈ K, ∃ v ∈ k', M.of v = l) → r = 0) ∧
      (∀ P : L → Prop, ∀ _ : DecidablePred P, (∀ l, P l ↔ ∃ k' ∈ K, ∃ v ∈ k', M.of v = l) → (∀ u ∈ c, ∀ v ∈ o, M.rank (M.of v) < M.rank (M.of u) ∧
        ∑ j, (if P j then 0 else M.var j * M.total (M.of u) j) * M.total (M.of v) j ≠ 0) → 0 < r) := by
  have hm : ∀ k ∈ c :: K, k ∈ cs := fun k hk => hl k (by simp at hk ⊢; tauto)
  obtain ⟨ω, h1, h2, h3⟩ := c104_uncorrelated_partial (svd := svd) data (fsts (c :: o :: K)) (snds (c :: K))
    (hsvd _ _ (by rw [(h.lens hl).1, (h.lens hm).2]; simp)) (by rw [(h.lens hl).1, (h.lens hm).2]; simp)
  have hZ : snds (c :: K) ≠ [] := by
    intro e
    have := (h.lens hm).2
    rw [e] at this
    simp at this
  have hd := fun z (hz : z ∈ snds (c :: K)) => detects_iff (ω := ω) hM hI (h.not_fsts hl hm hz)
  have hu : ∀ z ∈ snds (c :: K), ∑ j, M.var j * M.weight (share _ ω) j * M.total (M.of z) j = 0 := by
    intro z hz
    have := h3 z hz
    rw [cov_latent hcov (h.not_fsts hl hm hz)] at this
    exact (mul_eq_zero.1 this).resolve_left (hM.load z)
  -- the latent variables of `c` and of the roots
  have hlat : ∀ k ∈ c :: K, ∀ u ∈ k, ∃ z ∈ snds (c :: K), M.of z = M.of u := by
    intro k hk u hu
    obtain ⟨a, b, rfl, -, e⟩ := h.pair k (hm k hk)
    refine ⟨b, List.mem_flatMap.2 ⟨_, hk, by simp⟩, ?_⟩
    simp at hu
    rcases hu with rfl | rfl
    · exact e.symm
    · rfl
  have hpos : (0 : ℝ) < (snds (c :: K)).length := by exact_mod_cast List.length_pos_of_ne_nil hZ
  refine ⟨_, ginData_ok hZ h1, ?_, ?_, ?_⟩
  · refine div_nonneg (List.sum_nonneg ?_) hpos.le
    simp only [List.mem_map]
    rintro x ⟨z, hz, rfl⟩
    exact (hd z hz).1
  · intro hc
    have hclosed : ∀ i, (∃ k ∈ c :: K, ∃ v ∈ k, M.of v = i) → ∀ l, M.direct i l ≠ 0 → ∃ k ∈ c :: K, ∃ v ∈ k, M.of v = l := by
      rintro i ⟨k, hk, v, hv, rfl⟩ l hdl
      rcases List.mem_cons.1 hk with rfl | hk
      · obtain ⟨k', hk', r⟩ := hc v hv l hdl
        exact ⟨k', List.mem_cons_of_mem _ hk', r⟩
      · obtain ⟨k', hk', r⟩ := hP k hk v hv l hdl
        exact ⟨k', List.mem_cons_of_mem _ hk', r⟩
    have hw : ∀ j, (∃ k ∈ c :: K, ∃ v ∈ k, M.of v = j) → M.weight (share _ ω) j = 0 := fun j hj =>
      hM.weight_zero hclosed (by
        rintro i ⟨k, hk, v, hv, rfl⟩
        obtain ⟨z, hz, e⟩ := hlat k hk v hv
        rw [← e]
        exact hu z hz) hj
    rw [div_eq_zero_iff]
    left
    refine List.sum_eq_zero ?_
    simp only [List.mem_map]
    rintro x ⟨z, hz, rfl⟩
    rw [(hd z hz).2]
    intro j
    by_cases ht : M.total (M.of z) j = 0
    · exact Or.inr ht
    · left
      obtain ⟨k, hk, hzk⟩ := List.mem_flatMap.1 hz
      exact hw j (hM.total_closed hclosed ⟨k, hk, z, List.mem_of_mem_drop hzk, rfl⟩ ht)
  · intro P _ hPK hco
    obtain ⟨c1, c2, rfl, hc12, hce⟩ := h.pair c (hl c (by simp))
    obtain ⟨o1, o2, rfl, ho12, hoe⟩ := h.pair o (hl o (by simp))
    have hPn : ∀ {d : List (Fin p)} {u : Fin p}, d ∈ cs → d ∉ K → u ∈ d → ¬ P (M.of u) := by
      intro d u hd hdK hud hp
      obtain ⟨k, hk, v, hv, e⟩ := (hPK _).1 hp
      exact hdK (h.same (hl k (by simp [hk])) hd hv hud e ▸ hk)
    have hn' := hn
    simp only [List.nodup_cons, List.mem_cons, not_or] at hn'
    have hclosed : ∀ i, P i → ∀ l, M.direct i l ≠ 0 → P l := by
      intro i hi l hl
      obtain ⟨k, hk, v, hv, rfl⟩ := (hPK _).1 hi
      exact (hPK _).2 (hP k hk v hv l hl)
    have hmemX : ∀ v, share _ ω v ≠ 0 → ∃ k ∈ [c1, c2] :: [o1, o2] :: K, ∃ w, k = [v, w] := by
      intro v hv
      obtain ⟨k, hk, hvk⟩ := List.mem_flatMap.1 (share_mem hv)
      obtain ⟨w, e, -⟩ := h.first (hl k hk) hvk
      exact ⟨k, hk, w, e⟩
    have hne := hM.weight_ne (μ := share _ ω) (c1 := c1) (o1 := o1) hclosed (hPn (hl _ (by simp)) hn'.1.2 (by simp)) (hPn (hl _ (by simp)) hn'.2.1 (by simp))
      (hco c1 (by simp) o1 (by simp)).1 (hco c1 (by simp) o1 (by simp)).2
      (by
        intro v hv
        obtain ⟨k, hk, w, rfl⟩ := hmemX v hv
        simp only [List.mem_cons] at hk
        rcases hk with e | e | hk
        · left
          exact (List.cons.inj e).1
        · right; left
          exact (List.cons.inj e).1
        · right; right
          exact (hPK _).2 ⟨_, hk, v, by simp, rfl⟩)
      (by
        intro u v hu hv e
        obtain ⟨k, hk, w, rfl⟩ := hmemX u hu
        obtain ⟨k', hk', w', rfl⟩ := hmemX v hv
        exact (List.cons.inj (h.same (hl _ hk) (hl _ hk') (u := u) (v := v) (by simp) (by simp) e)).1)
      (by
        by_contra hcon
        push Not at hcon
        have : ∑ j, ω j ^ 2 = 0 := Finset.sum_eq_zero fun j _ => by
          rw [← share_get (ω := ω) (h.fsts_nodup hl hn) j, hcon, sq, zero_mul]
        rw [this] at h2
        exact zero_ne_one h2)
      (by
        rintro k (hk | rfl)
        · obtain ⟨k', hk', v, hv, rfl⟩ := (hPK _).1 hk
          obtain ⟨z, hz, e⟩ := hlat k' (List.mem_cons_of_mem _ hk') v hv
          rw [← e]
          exact hu z hz
        · obtain ⟨z, hz, e⟩ := hlat _ List.mem_cons_self c1 (by simp)
          rw [← e]
          exact hu z hz)
    refine div_pos ?_ hpos
    have hc2 : c2 ∈ snds ([c1, c2] :: K) := List.mem_flatMap.2 ⟨[c1, c2], by simp, by simp⟩
    have hp : 0 < I (surrogate data _ ω) (data c2) := by
      refine lt_of_le_of_ne (hd c2 hc2).1 fun e => ?_
      rcases ((hd c2 hc2).2.1 e.symm) (M.of c1) with h | h
      · exact hne h
      · rw [← hce, hM.total_self] at h
        exact one_ne_zero h
    refine lt_of_lt_of_le hp (List.single_le_sum ?_ _ (List.mem_map.2 ⟨c2, hc2, rfl⟩))
    simp only [List.mem_map]
    rintro x ⟨z, hz, rfl⟩
    exact (hd z hz).1

/-- The sum that `FindRoot` compares, for pairs. -/
theorem Pairs.total_eq (h : Pairs M cs) (g : List (Fin p) → List (Fin p) → ℝ) {K rest : List (List (Fin p))} {c : List (Fin p)} (hc : c ∈ cs)
    (hr : ∀ k ∈ rest, k ∈ cs) : Hier.total g K rest c = ((rest.erase c).map fun o => g (fsts (c :: o :: K)) (snds (c :: K))).sum := by
  unfold Hier.total
  congr 1
  refine List.map_congr_left fun o ho => ?_
  obtain ⟨a, b, rfl, -⟩ := h.pair c hc
  obtain ⟨a', b', rfl, -⟩ := h.pair o (hr o (List.mem_of_mem_erase ho))
  simp [fsts, snds]

/-- The next root has all its causes among the roots found before. -/
theorem Pairs.step (hM : M.Good) (hcov : ∀ u v, Tetrad.cov (data u) (data v) = M.cov u v)
    (hsvd : ∀ X Z, Z.length < X.length → IsSvd (crossCov data X Z) (svd (crossCov data X Z))) (hI : Detects M data I)
    {cluster : List (Nat × List (List (Fin p)))} (h : Pairs M (cluster.flatMap Prod.snd)) {K : List (List (Fin p))}
    (hK : learnOrder (ginData svd I data) cluster = .ok K) (hp : K.Perm (cluster.flatMap Prod.snd)) {pre suf : List (List (Fin p))} {r : List (Fin p)}
    (hKe : K = pre ++ r :: suf) (hcl : ∀ k ∈ pre, ∀ u ∈ k, ∀ l, M.direct (M.of u) l ≠ 0 → ∃ k' ∈ pre, ∃ v ∈ k', M.of v = l) :
    ∀ k ∈ pre ++ [r], ∀ u ∈ k, ∀ l, M.direct (M.of u) l ≠ 0 → ∃ k' ∈ pre ++ [r], ∃ v ∈ k', M.of v = l := by
  classical
  have hKn : K.Nodup := hp.nodup_iff.2 h.nodup
  have hmemK : ∀ k, k ∈ K → k ∈ cluster.flatMap Prod.snd := fun k hk => hp.subset hk
  have hin : ∀ k ∈ pre ++ r :: suf, k ∈ cluster.flatMap Prod.snd := fun k hk => hmemK k (hKe ▸ hk)
  have hnd : (pre ++ r :: suf).Nodup := hKe ▸ hKn
  set g : List (Fin p) → List (Fin p) → ℝ := fun X Z => match ginData svd I data X Z with | .ok r => r | .error _ => 0 with hg
  have hgin : ∀ c o : List (Fin p), c ∈ r :: suf → o ∈ r :: suf → c ≠ o → ∃ x, ginData svd I data (fsts (c :: o :: pre)) (snds (c :: pre)) = .ok x ∧ 0 ≤ x ∧
      ((∀ u ∈ c, ∀ l, M.direct (M.of u) l ≠ 0 → ∃ k' ∈ pre, ∃ v ∈ k', M.of v = l) → x = 0) ∧
      (∀ P : L → Prop, ∀ _ : DecidablePred P, (∀ l, P l ↔ ∃ k' ∈ pre, ∃ v ∈ k', M.of v = l) → (∀ u ∈ c, ∀ v ∈ o, M.rank (M.of v) < M.rank (M.of u) ∧
        ∑ j, (if P j then 0 else M.var j * M.total (M.of u) j) * M.total (M.of v) j ≠ 0) → 0 < x) := by
    intro c o hc ho hco
    refine h.gin hM hcov hsvd hI (fun k hk => ?_) ?_ hcl
    · simp only [List.mem_cons] at hk
      rcases hk with rfl | rfl | hk
      · exact hin _ (List.mem_append_right _ hc)
      · exact hin _ (List.mem_append_right _ ho)
      · exact hin _ (List.mem_append_left _ hk)
    · have hd := (List.nodup_append.1 hnd)
      simp only [List.nodup_cons, List.mem_cons, not_or]
      exact ⟨⟨hco, fun hcp => hd.2.2 c hcp c hc rfl⟩, fun hop => hd.2.2 o hop o ho rfl, hd.1⟩
  have hgv : ∀ X Z x, ginData svd I data X Z = .ok x → g X Z = x := by
    intro X Z x hx
    rw [hg]
    simp only [hx]
  have hsuf : (r :: suf).Nodup := (List.nodup_append.1 hnd).2.1
  have hers : ∀ c o : List (Fin p), o ∈ (r :: suf).erase c → o ∈ r :: suf ∧ c ≠ o := fun c o ho =>
    ⟨List.mem_of_mem_erase ho, fun e => (List.Nodup.mem_erase_iff hsuf).1 (e ▸ ho) |>.1 rfl⟩
  by_contra hcon
  push Not at hcon
  -- the new root has a cause outside
  have hr : ∃ u ∈ r, ∃ l, M.direct (M.of u) l ≠ 0 ∧ ¬ ∃ k' ∈ pre, ∃ v ∈ k', M.of v = l := by
    obtain ⟨k, hk, u, hu, l, hl, hno⟩ := hcon
    have hno' : ¬ ∃ k' ∈ pre, ∃ v ∈ k', M.of v = l := by
      rintro ⟨k', hk', v, hv, e⟩
      exact hno k' (List.mem_append_left _ hk') v hv e
    rcases List.mem_append.1 hk with hk | hk
    · exact absurd (hcl k hk u hu l hl) hno'
    · rw [List.mem_singleton] at hk
      subst hk
      exact ⟨u, hu, l, hl, hno'⟩
  obtain ⟨u, hu, l, hl, hno⟩ := hr
  have hrin : r ∈ cluster.flatMap Prod.snd := hin r (by simp)
  have hone : ∀ v ∈ r, M.of v = M.of u := by
    intro v hv
    exact h.one hrin hv hu
  set P : L → Prop := fun l => ∃ k' ∈ pre, ∃ v ∈ k', M.of v = l with hPdef
  have hPcl : ∀ i, P i → ∀ k, M.direct i k ≠ 0 → P k := by
    rintro i ⟨k, hk, v, hv, rfl⟩ l hl
    exact hcl k hk v hv l hl
  obtain ⟨o, hPo, hrank, hcor⟩ := hM.correlate hPcl hno hl
  obtain ⟨ko, hko, w, hw, rfl⟩ := h.all o
  have hkoK : ko ∈ pre ++ r :: suf := hKe ▸ hp.symm.subset hko
  have hkos : ko ∈ r :: suf := (List.mem_append.1 hkoK).resolve_left fun hk => hPo ⟨ko, hk, w, hw, rfl⟩
  have hkor : r ≠ ko := by
    rintro rfl
    rw [hone w hw] at hrank
    omega
  have hpos : 0 < Hier.total g pre (r :: suf) r := by
    rw [h.total_eq g hrin fun k hk => hin k (List.mem_append_right _ hk)]
    obtain ⟨x, hx, -, -, hx4⟩ := hgin r ko (by simp) hkos hkor
    have hxp : 0 < x := by
      refine hx4 P (Classical.decPred P) (fun l => Iff.rfl) fun a ha b hb => ?_
      have e1 := hone a ha
      have e2 : M.of b = M.of w := h.one hko hb hw
      rw [e1, e2]
      refine ⟨hrank, ?_⟩
      convert hcor
    refine lt_of_lt_of_le hxp ?_
    rw [← hgv _ _ _ hx]
    refine List.single_le_sum ?_ _ (List.mem_map.2 ⟨ko, (List.Nodup.mem_erase_iff hsuf).2 ⟨hkor.symm, hkos⟩, rfl⟩)
    simp only [List.mem_map]
    rintro y ⟨k, hk, rfl⟩
    obtain ⟨hk1, hk2⟩ := hers r k hk
    obtain ⟨x', hx', hx2', -⟩ := hgin r k (by simp) hk1 hk2
    rw [hgv _ _ _ hx']
    exact hx2'
  -- a cluster of least rank has the value zero
  obtain ⟨m, hm, hmin⟩ : ∃ m ∈ r :: suf, ∀ k ∈ r :: suf, ∀ a ∈ m, ∀ b ∈ k, M.rank (M.of a) ≤ M.rank (M.of b) := by
    exact h.least (List.cons_ne_nil _ _) fun k hk => hin k (List.mem_append_right _ hk)
  have hzero : Hier.total g pre (r :: suf) m = 0 := by
    rw [h.total_eq g (hin m (List.mem_append_right _ hm)) fun k hk => hin k (List.mem_append_right _ hk)]
    refine List.sum_eq_zero ?_
    simp only [List.mem_map]
    rintro y ⟨k, hk, rfl⟩
    obtain ⟨hk1, hk2⟩ := hers m k hk
    obtain ⟨x', hx', -, hx3, -⟩ := hgin m k hm hk1 hk2
    rw [hgv _ _ _ hx']
    refine hx3 fun a ha l hl => ?_
    by_contra hnl
    obtain ⟨kl, hkl, b, hb, rfl⟩ := h.all l
    have h1 : kl ∈ pre ++ r :: suf := hKe ▸ hp.symm.subset hkl
    have h2 : kl ∈ r :: suf := (List.mem_append.1 h1).resolve_left fun hk => hnl ⟨kl, hk, b, hb, rfl⟩
    have h3 := hmin kl h2 a ha b hb
    have h4 := hM.acyclic _ _ hl
    omega
  rcases List.mem_cons.1 hm with e | hm'
  · rw [e] at hzero
    linarith
  · have := (c102_min (g := g) (fun X Z x hx => (hgv X Z x hx).symm) hK pre r suf hKe m hm').1
    linarith

/-- C167. Let the latent variables follow a linear model without cycles, let every latent variable have a cluster of two measured variables, let the sample
have the covariances of the model, and let the estimate of mutual information be ideal. Then `LearnCausalOrder` returns, and in its order a cause comes
before its effect. The weights need not be in general position. -/
theorem c167_order (hM : M.Good) (hcov : ∀ u v, Tetrad.cov (data u) (data v) = M.cov u v)
    (hsvd : ∀ X Z, Z.length < X.length → IsSvd (crossCov data X Z) (svd (crossCov data X Z))) (hI : Detects M data I)
    {cluster : List (Nat × List (List (Fin p)))} (h : Pairs M (cluster.flatMap Prod.snd)) :
    ∃ K, learnOrder (ginData svd I data) cluster = .ok K ∧ K.Perm (cluster.flatMap Prod.snd) ∧
      ∀ c ∈ K, ∀ d ∈ K, ∀ u ∈ c, ∀ v ∈ d, M.direct (M.of v) (M.of u) ≠ 0 → [c, d].Sublist K := by
  classical
  obtain ⟨K, hK⟩ := c102_returns_partial (gin := ginData svd I data) (cluster := cluster) (by
    intro X Z hX hZ
    refine ⟨_, ginData_ok hZ (ω := fun j => svd (crossCov data X Z) ⟨X.length - 1, ?_⟩ j) ?_⟩
    · have := List.length_pos_of_ne_nil hX
      omega
    · unfold getomega
      rw [dif_pos (List.length_pos_of_ne_nil hX)]
      rfl) (by
    intro c hc
    obtain ⟨u, v, rfl, -⟩ := h.pair c hc
    simp)
  have hp := c102_perm hK
  refine ⟨K, hK, hp, ?_⟩
  have hKn : K.Nodup := hp.nodup_iff.2 h.nodup
  have hmemK : ∀ k, k ∈ K → k ∈ cluster.flatMap Prod.snd := fun k hk => hp.subset hk
  have hclosed : ∀ pre suf, K = pre ++ suf → ∀ k ∈ pre, ∀ u ∈ k, ∀ l, M.direct (M.of u) l ≠ 0 → ∃ k' ∈ pre, ∃ v ∈ k', M.of v = l := by
    intro pre
    induction pre using List.reverseRecOn with
    | nil =>
      intro suf _ k hk
      cases hk
    | append_singleton pre r ih =>
      intro suf hKe
      rw [List.append_assoc, List.singleton_append] at hKe
      exact h.step hM hcov hsvd hI hK hp hKe (ih _ hKe)
  intro c hc d hd u hu v hv hdir
  obtain ⟨pre, suf, hKe⟩ := List.append_of_mem hd
  obtain ⟨k', hk', w, hw, e⟩ := hclosed (pre ++ [d]) suf (by rw [hKe]; simp) d (by simp) v hv _ hdir
  have hk'K : k' ∈ K := by
    rw [hKe]
    simp only [List.mem_append, List.mem_cons] at hk' ⊢
    tauto
  have hkc : k' = c := h.same (hmemK _ hk'K) (hmemK _ hc) hw hu e
  subst hkc
  have hcd : k' ≠ d := by
    rintro rfl
    have h1 := hM.acyclic _ _ hdir
    rw [h.one (hmemK _ hc) hu hv] at h1
    omega
  have hpre : k' ∈ pre := by
    rcases List.mem_append.1 hk' with h | h
    · exact h
    · exact absurd (List.mem_singleton.1 h) hcd
  rw [hKe]
  exact (List.singleton_sublist.2 hpre).append (List.cons_sublist_cons.2 (List.nil_sublist suf))

end pairs

end Cdmir.Hier
