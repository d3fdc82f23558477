import Verif.Props.Five
import Verif.Props.FisherPC
import Verif.Props.FisherSem
import Verif.Props.FisherExamples
import Verif.Lemmas.Perturb
import Verif.Lemmas.Sample

/-! C172: GES with the BIC score and PC with Fisher's z test on records drawn from a linear model. -/

namespace Cdmir.Consistency
open BigOperators Spec Matrix MeasureTheory ProbabilityTheory Filter LocalScore Fisher Sample Perturb GES
open scoped ProbabilityTheory Topology

section near
variable {n : Nat}

theorem corrcoef_covN {Ω : Type} (X : ℕ → Ω → Fin n → ℝ) {N : ℕ} (hN : 2 ≤ N) (ω : Ω) : corrcoef (data X N ω) = corrOf (covN X N ω) := by
  have h1 : (0 : ℝ) < N - 1 := by
    have : (2 : ℝ) ≤ N := by exact_mod_cast hN
    linarith
  have h0 : (0 : ℝ) < N := by linarith
  have e : ∀ a b, Tetrad.cov (data X N ω a) (data X N ω b) = N / (N - 1) * covN X N ω a b := fun a b => by
    unfold Tetrad.cov covN
    rw [of_apply]
    field_simp
  ext a b
  unfold corrcoef corrOf
  rw [of_apply, of_apply, e, e, e, Real.sqrt_mul (by positivity), Real.sqrt_mul (by positivity),
    show √((N : ℝ) / (N - 1)) * √(covN X N ω a a) * (√((N : ℝ) / (N - 1)) * √(covN X N ω b b)) =
      √((N : ℝ) / (N - 1)) * √((N : ℝ) / (N - 1)) * (√(covN X N ω a a) * √(covN X N ω b b)) by ring,
    Real.mul_self_sqrt (by positivity), mul_div_mul_left _ _ (by positivity)]

/-- Partial correlations do not depend on the units. -/
theorem corrSq_corrOf {T : Matrix (Fin n) (Fin n) ℝ} (hT : T.PosDef) {i j : Fin n} {Z : Fin n → Prop} {e c : Fin n → ℝ} (he : Residual (corrOf T) i Z e)
    (hc : Residual (corrOf T) j Z c) : ∃ e' c', Residual T i Z e' ∧ Residual T j Z c' ∧ corrSq T e' c' = corrSq (corrOf T) e c := by
  rw [corrOf_eq] at he hc ⊢
  obtain ⟨g, hg⟩ : ∃ g : Fin n → ℝ, g = fun v => (√(T v v))⁻¹ := ⟨_, rfl⟩
  have hg0 : ∀ v, g v ≠ 0 := hg ▸ sqrt_diag_ne hT
  rw [← hg] at he hc ⊢
  have conv : ∀ {x : Fin n} {a : Fin n → ℝ}, Residual (Spec.rescale g T) x Z a → Residual T x Z (fun v => g v * a v / g x) := by
    rintro x a ⟨h1, h2, h3⟩
    have e : T.mulVec (fun v => g v * a v / g x) = (g x)⁻¹ • T.mulVec (fun v => g v * a v) := by
      rw [← mulVec_smul]
      congr 1; ext v; simp [div_eq_inv_mul]
    refine ⟨?_, fun v hv => h2 v ?_, fun z hz => ?_⟩
    · simp [h1, hg0 x]
    · rintro h0; exact hv (by simp [h0])
    · have := h3 z hz
      rw [rescale_mulVec, mul_eq_zero] at this
      rw [e, Pi.smul_apply, this.resolve_left (hg0 z), smul_zero]
  have hcov : ∀ (x y : Fin n) (a b : Fin n → ℝ), covar T (fun v => g v * a v / g x) (fun v => g v * b v / g y) = covar (Spec.rescale g T) a b / (g x * g y) := by
    intro x y a b
    unfold covar
    rw [Finset.sum_div]
    refine Finset.sum_congr rfl fun u _ => ?_
    rw [Finset.sum_div]
    refine Finset.sum_congr rfl fun v _ => ?_
    rw [rescale_apply]
    have := hg0 x
    have := hg0 y
    field_simp
  refine ⟨_, _, conv he, conv hc, ?_⟩
  unfold corrSq
  rw [hcov, hcov, hcov]
  have := hg0 i
  have := hg0 j
  field_simp

variable {C : Matrix (Fin n) (Fin n) ℝ} {R : Fin n → Fin n → Prop}

theorem sqrt_mul_div (D : ℝ) (N : ℕ) : (D / √(N : ℝ)) ^ 2 = D ^ 2 / N := by
  rw [div_pow, Real.sq_sqrt (Nat.cast_nonneg N)]

theorem div_sqrt_small (D : ℝ) {d : ℝ} (hd : 0 < d) : ∃ N0 : ℕ, ∀ N ≥ N0, D / √(N : ℝ) ≤ d := by
  have : Tendsto (fun N : ℕ => D / √(N : ℝ)) atTop (𝓝 0) :=
    Tendsto.div_atTop tendsto_const_nhds (Real.tendsto_sqrt_atTop.comp tendsto_natCast_atTop_atTop)
  obtain ⟨N0, h⟩ := eventually_atTop.1 (this.eventually (gt_mem_nhds hd))
  exact ⟨N0, fun N hN => (h N hN).le⟩

theorem log_large (M : ℝ) {l : ℝ} (hl : 0 < l) : ∃ N0 : ℕ, ∀ N ≥ N0, M < l * Real.log N := by
  have : Tendsto (fun N : ℕ => l * Real.log (N : ℝ)) atTop atTop :=
    Tendsto.const_mul_atTop hl (Real.tendsto_log_atTop.comp tendsto_natCast_atTop_atTop)
  exact eventually_atTop.1 (this.eventually_gt_atTop M)

/-- The BIC score on correlations that are near those of a faithful linear model. -/
theorem bic_near (ac : Acyclic R) (hM : LinearModel R C) (hF : Faithful R C) {lambda : ℝ} (hla : 0 < lambda) {D : ℝ} (_hD : 0 < D) :
    ∃ N0, ∀ N ≥ N0, ∀ T : Matrix (Fin n) (Fin n) ℝ, (∀ i j, T i j = T j i) → (∀ u v, |T u v - C u v| ≤ D / √(N : ℕ)) →
      ∃ score : Fin n → List (Fin n) → ℝ, (∀ j l, l.Nodup → j ∉ l → bic (corrOf T) N lambda j l = .ok (score j l)) ∧ SetScore score ∧
        ScoreEquiv score (List.finRange n) ∧ LocallyConsistent score (List.finRange n) R := by
  have hP := hM.posDef ac
  obtain ⟨δ0, hδ0, L, hL, hnear⟩ := near hP
  obtain ⟨N1, hN1⟩ := div_sqrt_small D hδ0
  obtain ⟨N2, hN2⟩ := div_sqrt_small (D * √L) (show (0 : ℝ) < 1 / 2 by norm_num)
  obtain ⟨N3, hN3⟩ := log_large (2 * (L * D ^ 2)) hla
  obtain ⟨N4, hN4⟩ := gain_beats_penalty (one_div_pos.2 hL) hla
  refine ⟨max (max N1 N2) (max (max N3 N4) 1), fun N hN T hT hd => ?_⟩
  have g1 := hN1 N (by omega)
  have g2 := hN2 N (by omega)
  have g3 := hN3 N (by omega)
  have g4 := hN4 N (by omega)
  have hNp : 0 < N := by omega
  have hNr : (0 : ℝ) < N := by exact_mod_cast hNp
  obtain ⟨hTP, hcorr⟩ := hnear T _ hT hd g1
  have hPc := corrOf_posDef hTP
  have hd1 := corrOf_diag hTP
  obtain ⟨score, hv, hset, heq⟩ := c63_bic hPc hd1 N lambda
  refine ⟨score, hv, hset, heq, ?_⟩
  intro i _ j _ hij l hl _ hil hjl
  have hnd : (i :: j :: l).Nodup := List.nodup_cons.2 ⟨fun q => (List.mem_cons.1 q).elim hij hil, List.nodup_cons.2 ⟨hjl, hl⟩⟩
  have hil' : (i :: l).Nodup := List.nodup_cons.2 ⟨hil, hl⟩
  have hj' : j ∉ i :: l := fun q => (List.mem_cons.1 q).elim (fun q => hij q.symm) hjl
  have hunc : PartialUncorr C i j (fun x => x ∈ l) ↔ DSep R i j (fun x => x ∈ l) :=
    ⟨hF i j _ hij hil hjl, markov_residual ac hM hil⟩
  obtain ⟨e, c, s, s', he, hc, p1, p2, p3, hs, hs', hg⟩ := c163_gain hPc hd1 N lambda hnd
  rw [hv j l hl hjl] at hs
  rw [hv j (i :: l) hil' hj'] at hs'
  rw [Except.ok.inj hs, Except.ok.inj hs']
  obtain ⟨e', c', he', hc', hq⟩ := corrSq_corrOf hTP he hc
  obtain ⟨k1, k2⟩ := hcorr i j l e' c' hnd he' hc'
  rw [hq] at k1 k2
  have hr1 : corrSq (corrOf T) e c < 1 := (div_lt_one (mul_pos p1 p2)).2 p3
  change s' - s = -(N * Real.log (1 - corrSq (corrOf T) e c)) - lambda * Real.log N at hg
  set r := corrSq (corrOf T) e c with hr
  constructor
  · intro hsep
    have hrs := k1 (hunc.2 hsep)
    rw [sqrt_mul_div D N] at hrs
    have hhalf : r ≤ 1 / 2 := by
      have h1 : L * (D ^ 2 / N) = (D * √L / √N) ^ 2 := by
        rw [div_pow, mul_pow, Real.sq_sqrt hL.le, Real.sq_sqrt hNr.le]; ring
      rw [h1] at hrs
      by_cases hDL : 0 ≤ D * √L / √N
      · nlinarith
      · exact absurd (by have := Real.sqrt_nonneg L; positivity) hDL
    have hr0 : 0 ≤ r := by rw [hr]; unfold corrSq; positivity
    have hlog : 1 - (1 - r)⁻¹ ≤ Real.log (1 - r) := Real.one_sub_inv_le_log_of_pos (by linarith)
    have hinv : (1 - r)⁻¹ - 1 ≤ 2 * r := by
      rw [sub_le_iff_le_add, inv_le_iff_one_le_mul₀ (by linarith)]
      nlinarith
    have : -(N * Real.log (1 - r)) ≤ 2 * (L * D ^ 2) := by
      have h1 : -Real.log (1 - r) ≤ 2 * (L * (D ^ 2 / N)) := by linarith
      calc -(N * Real.log (1 - r)) = N * -Real.log (1 - r) := by ring
        _ ≤ N * (2 * (L * (D ^ 2 / N))) := mul_le_mul_of_nonneg_left h1 hNr.le
        _ = _ := by field_simp
    linarith
  · intro hsep
    have hrs := k2 fun h => hsep (hunc.1 h)
    have hlog : Real.log (1 - r) ≤ 1 - r - 1 := Real.log_le_sub_one_of_pos (by linarith)
    have : N * (1 / L) ≤ -(N * Real.log (1 - r)) := by
      rw [← mul_neg]
      exact mul_le_mul_of_nonneg_left (by linarith) hNr.le
    linarith

end near

section ges
variable {Ω : Type} {mΩ : MeasurableSpace Ω} {P : Measure Ω} [IsProbabilityMeasure P] {n : Nat} {X : ℕ → Ω → Fin n → ℝ} {R : Fin n → Fin n → Prop}

theorem covN_symm (X : ℕ → Ω → Fin n → ℝ) (N : ℕ) (ω : Ω) (i j : Fin n) : covN X N ω i j = covN X N ω j i := by
  unfold covN
  rw [of_apply, of_apply]
  congr 1
  exact Finset.sum_congr rfl fun s _ => mul_comm _ _

/-- **C172, GES.** On `N` records drawn independently from a distribution with fourth moments whose covariances are those of a faithful linear model over a
DAG with at most five variables, `GES.fit` with the BIC score of the sample returns the CPDAG of the DAG, with probability tending to one. -/
theorem c172_ges (h5 : n ≤ 5) (hX : Drawn P X) (ac : Acyclic R) (hM : LinearModel R (covOf P X)) (hF : Faithful R (covOf P X)) {lambda : ℝ} (hla : 0 < lambda)
    {so : List (Fin n) → List (Fin n)} (hso : ∀ l, (so l).Perm l) {maxP : ℚ} (hmaxP : (n : ℚ) ≤ maxP + 2) :
    Tendsto (fun N => P {ω | ∃ score : Fin n → List (Fin n) → ℝ,
      (∀ j l, l.Nodup → j ∉ l → bic (corrcoef (data X N ω)) N lambda j l = .ok (score j l)) ∧
      ∃ (g : Graph (Fin n)) (s : ℝ) (M : Nat), (∀ m, M ≤ m → fit m so maxP score (List.finRange n) = .ok (g, s)) ∧
        g.nodes = List.finRange n ∧ IsCpdag R g ∧ DagScore score (List.finRange n) R s}) atTop (𝓝 1) := by
  refine tendsto_good hX fun D hD => ?_
  obtain ⟨N0, h⟩ := bic_near ac hM hF hla hD
  refine ⟨max N0 2, fun N hN ω hω => ?_⟩
  obtain ⟨score, hv, hset, heq, hlc⟩ := h N ((le_max_left _ _).trans hN) (covN X N ω) (covN_symm X N ω) hω
  rw [← corrcoef_covN X ((le_max_right _ _).trans hN) ω] at hv
  exact ⟨score, hv, c162_five (List.nodup_finRange n) (by rw [List.length_finRange]; exact h5) hso hset heq
    (by rw [List.length_finRange]; exact hmaxP) ac (fun a b _ => ⟨List.mem_finRange a, List.mem_finRange b⟩) hlc⟩

end ges

section pc
variable {α : Type} [DecidableEq α] {G : Graph α} {C : Matrix (Fin G.nodes.length) (Fin G.nodes.length) ℝ}

/-- The statistic is the partial correlation. -/
theorem fromSub_corr {n : Nat} {T : Matrix (Fin n) (Fin n) ℝ} (hT : T.PosDef) (N : ℕ) {i j : Fin n} {zs : List (Fin n)} (hnd : (i :: j :: zs).Nodup) :
    ∃ (r : ℝ) (e c : Fin n → ℝ), fromSub (corrOf T) N i j zs = .ok (pOf N zs.length (.fin r), .fin r) ∧ Residual T i (fun w => w ∈ zs) e ∧
      Residual T j (fun w => w ∈ zs) c ∧ r ^ 2 = corrSq T e c := by
  have hPc := corrOf_posDef hT
  have hS := hPc.submatrix (picks_var hnd).inj
  obtain ⟨⟨a, b, ha, hb⟩, hall⟩ := c116_partial_correlation (corr := corrOf T) (N := N) hnd hS
  obtain ⟨p, hp⟩ := hall a b ha hb
  rw [cal_nat, fromSub_posDef hS] at hp
  simp only [Except.ok.injEq, Prod.mk.injEq, Stat.fin.injEq] at hp
  obtain ⟨e, c, he, hc, hq⟩ := corrSq_corrOf hT ha hb
  have hpos : ∀ {x : Fin n} {a : Fin n → ℝ}, Residual (corrOf T) x (fun w => w ∈ zs) a → 0 < covar (corrOf T) a a := fun {x a} h => by
    rw [covar_dot]
    exact (posDef_iff.1 hPc).2 a fun q => by have := h.1; rw [q] at this; exact zero_ne_one this
  refine ⟨_, e, c, fromSub_posDef hS, he, hc, ?_⟩
  rw [hp.2, hq, corrSq, div_pow, Real.sq_sqrt (mul_pos (hpos ha) (hpos hb)).le]

theorem zOf_le {a : ℝ} (h0 : 0 ≤ a) (h1 : a ≤ 1 / 2) : zOf a ≤ 2 * a := by
  unfold zOf
  have h2 : 0 < 1 - a := by linarith
  have h3 : 0 ≤ 2 * a / (1 - a) := by positivity
  have h4 : 2 * a / (1 - a) ≤ 4 * a := by rw [div_le_iff₀ h2]; nlinarith
  have := Real.log_le_sub_one_of_pos (show 0 < 1 + 2 * a / (1 - a) by linarith)
  linarith

/-- What a `FisherZ` object answers for correlations that are near those of a faithful linear model: for d-separated variables the p-value has a positive
lower bound that does not depend on the number of records, for others it goes to zero. -/
theorem answer_near (hG : Reachable .digraph G) (ac : Acyclic (Dir G))
    (hC : LinearModel (fun i j => Dir G (G.nodes.get i) (G.nodes.get j)) C)
    (hF : Faithful (fun i j => Dir G (G.nodes.get i) (G.nodes.get j)) C) {D : ℝ} (hD : 0 < D) :
    ∃ N0, ∃ κ > 0, ∃ B : ℝ, ∀ N ≥ N0, ∀ T : Matrix (Fin G.nodes.length) (Fin G.nodes.length) ℝ, (∀ i j, T i j = T j i) →
      (∀ u v, |T u v - C u v| ≤ D / √(N : ℕ)) → (corrOf T).PosDef ∧ ∀ u v z, Legal G.nodes u v z → ∃ p : ℝ,
        (∀ s, CacheInv (fisherzFromCorr (corrOf T) N) s → ∃ s', fisherTest G.nodes (corrOf T) N u v z s = .ok (.val p, s') ∧
          CacheInv (fisherzFromCorr (corrOf T) N) s') ∧
        (DSep (Dir G) u v (fun w => w ∈ z) → 2 * (1 - normCdf B) ≤ p) ∧ (¬ DSep (Dir G) u v (fun w => w ∈ z) → p ≤ 2 * (1 - normCdf (κ * √N))) := by
  have hn : G.nodes.Nodup := hG.dg.wf.nodup
  have hinj : Function.Injective G.nodes.get := List.nodup_iff_injective_get.1 hn
  set R : Fin G.nodes.length → Fin G.nodes.length → Prop := fun i j => Dir G (G.nodes.get i) (G.nodes.get j) with hRd
  have acR : Acyclic R := by
    intro i hi
    exact ac _ (Relation.TransGen.lift G.nodes.get (fun a b h => h) _ _ hi)
  have hmem : ∀ u v, Dir G u v → (∃ i, G.nodes.get i = u) ∧ ∃ j, G.nodes.get j = v := fun u v h =>
    ⟨List.mem_iff_get.1 (Graph.Dir.mem hG.dg.wf h).1, List.mem_iff_get.1 (Graph.Dir.mem hG.dg.wf h).2⟩
  have hP := hC.posDef acR
  obtain ⟨δ0, hδ0, L, hL, hnear⟩ := near hP
  obtain ⟨N1, hN1⟩ := div_sqrt_small D hδ0
  obtain ⟨N2, hN2⟩ := div_sqrt_small (D * √L) (show (0 : ℝ) < 1 / 2 by norm_num)
  have hsL : 0 < √L := Real.sqrt_pos.2 hL
  set a0 : ℝ := min (9999999 / 10000000) (1 / √L) with ha0
  have ha0p : 0 < a0 := lt_min (by norm_num) (by positivity)
  have ha01 : a0 < 1 := (min_le_left _ _).trans_lt (by norm_num)
  have hz0 : 0 < zOf a0 := zOf_pos ha0p ha01
  refine ⟨max (max N1 N2) (2 * (G.nodes.length + 3)), zOf a0 / 2, by positivity, 2 * (D * √L), fun N hN T hT hd => ?_⟩
  have g1 := hN1 N (by omega)
  have g2 := hN2 N (by omega)
  have g3 : 2 * (G.nodes.length + 3) ≤ N := by omega
  have hNr : (0 : ℝ) < N := by
    have : 0 < N := by omega
    exact_mod_cast this
  obtain ⟨hTP, hcorr⟩ := hnear T _ hT hd g1
  refine ⟨corrOf_posDef hTP, ?_⟩
  rintro u v z ⟨l1, l2, l3, l4, l5, l6, l7⟩
  obtain ⟨i, j, zs, hi, hj, hz, hans⟩ := fisherTest_spec (corr := corrOf T) (N := N) (Fisher.posDef_symm (corrOf_posDef hTP)) l1 l2 l4
  have hnd : (i :: j :: zs).Nodup := by
    apply nodup_positions
    rw [hi, hj, hz]
    refine List.nodup_cons.2 ⟨fun h => ?_, List.nodup_cons.2 ⟨l7, l5⟩⟩
    rcases List.mem_cons.1 h with h | h
    · exact l3 h
    · exact l6 h
  have hds : DSep (Dir G) u v (fun w => w ∈ z) ↔ DSep R i j (fun w => w ∈ zs) := by
    rw [← hi, ← hj, dsep_map (R' := R) hinj (fun _ _ => Iff.rfl) hmem]
    refine dsep_congr (fun w => ?_) i j
    rw [← hz]
    exact ⟨fun h => by obtain ⟨w', h1, h2⟩ := List.mem_map.1 h; rw [← hinj h2]; exact h1, fun h => List.mem_map.2 ⟨w, h, rfl⟩⟩
  have hlen : zs.length ≤ G.nodes.length := by
    have h1 := (List.nodup_cons.1 (List.nodup_cons.1 hnd).2).2
    have := h1.length_le_card
    simpa using this
  have hf := picks_var hnd
  have hunc : PartialUncorr C i j (fun w => w ∈ zs) ↔ DSep R i j (fun w => w ∈ zs) :=
    ⟨hF i j _ hf.ne hf.fst_notMem hf.snd_notMem, markov_residual acR hC hf.fst_notMem⟩
  obtain ⟨r, e, c, hsub, he, hc, hr⟩ := fromSub_corr hTP N hnd
  obtain ⟨k1, k2⟩ := hcorr i j zs e c hnd he hc
  rw [← hr] at k1 k2
  rw [pOf_val (by omega) r] at hsub
  obtain ⟨b0, b1, _⟩ := absStat_fin r
  refine ⟨_, fun s hs => hans s hs _ hsub, fun hsep => ?_, fun hsep => ?_⟩
  · have hr2 := k1 (hunc.2 (hds.1 hsep))
    have hra : |r| ≤ D * √L / √N := by
      refine abs_le_of_sq_le_sq ?_ (by positivity)
      rw [div_pow, mul_pow, Real.sq_sqrt hL.le, Real.sq_sqrt hNr.le]
      rw [sqrt_mul_div] at hr2
      calc r ^ 2 ≤ L * (D ^ 2 / N) := hr2
        _ = _ := by ring
    have hab : absStat (.fin r) ≤ |r| := min_le_right _ _
    have hz := zOf_le b0 (hab.trans (hra.trans g2))
    have hle : √((N : ℝ) - zs.length - 3) * zOf (absStat (.fin r)) ≤ 2 * (D * √L) := by
      have h1 : √((N : ℝ) - zs.length - 3) ≤ √N := Real.sqrt_le_sqrt (by have : (0 : ℝ) ≤ zs.length := Nat.cast_nonneg _; linarith)
      have h2 : zOf (absStat (.fin r)) ≤ 2 * (D * √L / √N) := by linarith
      calc _ ≤ √N * (2 * (D * √L / √N)) := mul_le_mul h1 h2 (zOf_nonneg b0 b1) (Real.sqrt_nonneg _)
        _ = _ := by have := Real.sqrt_pos.2 hNr; field_simp
    have := normCdf_strictMono.monotone hle
    linarith
  · have hr2 := k2 fun h => hsep (hds.2 (hunc.1 h))
    have hra : 1 / √L ≤ |r| := by
      refine le_of_sq_le_sq ?_ (abs_nonneg r)
      rw [sq_abs, div_pow, one_pow, Real.sq_sqrt hL.le]
      exact hr2
    have hab : a0 ≤ absStat (.fin r) := min_le_min le_rfl hra
    have hle : zOf a0 / 2 * √N ≤ √((N : ℝ) - zs.length - 3) * zOf (absStat (.fin r)) := by
      have h1 : √N / 2 ≤ √((N : ℝ) - zs.length - 3) := by
        refine Real.le_sqrt_of_sq_le ?_
        rw [div_pow, Real.sq_sqrt hNr.le]
        have h3 : (2 : ℝ) * (G.nodes.length + 3) ≤ N := by exact_mod_cast g3
        have h4 : (zs.length : ℝ) ≤ G.nodes.length := by exact_mod_cast hlen
        linarith
      calc zOf a0 / 2 * √N = √N / 2 * zOf a0 := by ring
        _ ≤ _ := mul_le_mul h1 (zOf_mono ha0p.le hab b1) hz0.le (Real.sqrt_nonneg _)
    have := normCdf_strictMono.monotone hle
    linarith

variable {Ω : Type} {mΩ : MeasurableSpace Ω} {P : Measure Ω} [IsProbabilityMeasure P] {X : ℕ → Ω → Fin G.nodes.length → ℝ}

/-- **C172, PC.** On `N` records drawn independently from a distribution with fourth moments whose covariances are those of a faithful linear model over a
DAG, `PC.fit` with a new `FisherZ` object and the significance level `2 (1 - Φ (q N))` leaves the CPDAG of the DAG with probability tending to one, if
`q N` grows to infinity, but slower than the root of `N`. -/
theorem c172_pc (hX : Drawn P X) (hG : Reachable .digraph G) (ac : Acyclic (Dir G))
    (hC : LinearModel (fun i j => Dir G (G.nodes.get i) (G.nodes.get j)) (covOf P X))
    (hF : Faithful (fun i j => Dir G (G.nodes.get i) (G.nodes.get j)) (covOf P X)) {so : List α → List α} (hso : ∀ l, (so l).Perm l) {q : ℕ → ℝ}
    (hq : Tendsto q atTop atTop) (hq' : Tendsto (fun N => q N / √(N : ℕ)) atTop (𝓝 0))
    {search : CITest α (Cache (PV × Stat)) PV → List α → PV → Cache (PV × Stat) → Except Err (Graph α × Sep α × Cache (PV × Stat))}
    (hs : search = adjacencySearch ∨ search = fastAdjacencySearch) :
    Tendsto (fun N => P {ω | ∃ r st' c, pcFit search (fisherTest G.nodes (corrcoef (data X N ω)) N) G.nodes (.val (2 * (1 - normCdf (q N)))) [] = .ok (r, st') ∧
      dag2cpdag so G = .ok c ∧ r.causal.graphEqual c = .ok true ∧ ∀ u v, r.causal.getEdge u v = c.getEdge u v}) atTop (𝓝 1) := by
  refine tendsto_good hX fun D hD => ?_
  obtain ⟨N0, κ, hκ, B, h⟩ := answer_near hG ac hC hF hD
  obtain ⟨N1, hN1⟩ := eventually_atTop.1 (hq.eventually_ge_atTop B)
  obtain ⟨N2, hN2⟩ := eventually_atTop.1 (hq'.eventually (gt_mem_nhds hκ))
  refine ⟨max (max N0 2) (max N1 N2), fun N hN ω hω => ?_⟩
  obtain ⟨_, hans⟩ := h N (by omega) (covN X N ω) (covN_symm X N ω) hω
  rw [← corrcoef_covN X (by omega : 2 ≤ N) ω] at hans
  have hsq : 0 < √(N : ℝ) := Real.sqrt_pos.2 (by have : 0 < N := by omega
                                                 exact_mod_cast this)
  have k1 := normCdf_strictMono.monotone (hN1 N (by omega))
  have k2 := normCdf_strictMono ((div_lt_iff₀ hsq).1 (hN2 N (by omega)))
  refine c32_pc_oracle hG ac hso (I := CacheInv (fisherzFromCorr (corrcoef (data X N ω)) N)) ?_ CacheInv.nil search hs
  intro u v z hl s hinv
  obtain ⟨p, hp, p1, p2⟩ := hans u v z hl
  obtain ⟨s', e, hs'⟩ := hp s hinv
  refine ⟨.val p, s', e, hs', ?_⟩
  change 2 * (1 - normCdf (q N)) ≤ p ↔ _
  constructor
  · intro hle
    by_contra hsep
    have := p2 hsep
    linarith
  · intro hsep
    have := p1 hsep
    linarith

/-- **C172, PC at a fixed level.** At a fixed positive significance level `PC.fit` keeps every adjacency of the DAG with probability tending to one. -/
theorem c172_kept (hX : Drawn P X) (hG : Reachable .digraph G) (ac : Acyclic (Dir G))
    (hC : LinearModel (fun i j => Dir G (G.nodes.get i) (G.nodes.get j)) (covOf P X))
    (hF : Faithful (fun i j => Dir G (G.nodes.get i) (G.nodes.get j)) (covOf P X)) {alpha : ℝ} (ha : 0 < alpha)
    {search : CITest α (Cache (PV × Stat)) PV → List α → PV → Cache (PV × Stat) → Except Err (Graph α × Sep α × Cache (PV × Stat))}
    (hs : search = adjacencySearch ∨ search = fastAdjacencySearch) :
    Tendsto (fun N => P {ω | ∃ r st', pcFit search (fisherTest G.nodes (corrcoef (data X N ω)) N) G.nodes (.val alpha) [] = .ok (r, st') ∧
      ∀ u v, Adj (Dir G) u v → Conn r.causal u v}) atTop (𝓝 1) := by
  refine tendsto_good hX fun D hD => ?_
  obtain ⟨N0, κ, hκ, B, h⟩ := answer_near hG ac hC hF hD
  have hlim : Tendsto (fun N : ℕ => normCdf (κ * √(N : ℝ))) atTop (𝓝 1) :=
    normCdf_tendsto.comp (Tendsto.const_mul_atTop hκ (Real.tendsto_sqrt_atTop.comp tendsto_natCast_atTop_atTop))
  obtain ⟨N1, hN1⟩ := eventually_atTop.1 (hlim.eventually (lt_mem_nhds (show 1 - alpha / 2 < 1 by linarith)))
  refine ⟨max (max N0 2) N1, fun N hN ω hω => ?_⟩
  obtain ⟨hP, hans⟩ := h N (by omega) (covN X N ω) (covN_symm X N ω) hω
  rw [← corrcoef_covN X (by omega : 2 ≤ N) ω] at hans hP
  have k1 := hN1 N (by omega)
  obtain ⟨r, st', e, es, _, _, _, hcon, _⟩ := c33_pc_fit (alpha := PV.val alpha) (st := []) hG.dg.wf.nodup search hs
    (fun u v z s hl => fisherTest_total (N := N) hP s hl)
  obtain ⟨tr, ha1, hleg, hk, _⟩ := search_evidence hG.dg.wf.nodup hs es
  have hno : ∀ q ∈ tr, DSep (Dir G) q.u q.v (fun w => w ∈ q.z) ∨ ∃ p : ℝ, q.p = .val p ∧ p < alpha := by
    refine answers_inv (I := CacheInv (fisherzFromCorr (corrcoef (data X N ω)) N)) (L := fun q => Legal G.nodes q.u q.v q.z) ?_ ha1 CacheInv.nil hleg
    intro q s s' hq hs e
    obtain ⟨p, hp, _, p2⟩ := hans q.u q.v q.z hq
    obtain ⟨s1, e1, h1⟩ := hp s hs
    rw [e] at e1
    simp only [Except.ok.injEq, Prod.mk.injEq] at e1
    refine ⟨?_, e1.2 ▸ h1⟩
    by_cases hd : DSep (Dir G) q.u q.v (fun w => w ∈ q.z)
    · exact Or.inl hd
    · have := p2 hd
      exact Or.inr ⟨p, e1.1, by linarith⟩
  refine ⟨r, st', e, fun u v huv => ?_⟩
  have hne : u ≠ v := by
    rintro rfl
    rcases huv with q | q <;> exact ac u (.single q)
  have hm : u ∈ G.nodes ∧ v ∈ G.nodes := by
    rcases huv with q | q
    · exact Graph.Dir.mem hG.dg.wf q
    · exact (Graph.Dir.mem hG.dg.wf q).symm
  have hacc : ∀ a b z, Adj (Dir G) a b → a ≠ b → ¬ Accepted (PV.val alpha) tr a b z := by
    rintro a b z hab hne ⟨p, hle, hmem⟩
    rcases hno _ hmem with q | ⟨p', q, hlt⟩
    · exact Spec.not_dsep_of_adj hne hab q
    · simp only at q
      rw [q] at hle
      exact absurd hlt (not_lt.2 hle)
  unfold Conn
  rw [hcon]
  exact (hk u v).2 ⟨hm.1, hm.2, hne, fun z => ⟨hacc u v z huv hne, hacc v u z huv.symm hne.symm⟩⟩

end pc

section examples

/-- The coefficients of the errors in the chain. -/
def exA : Matrix (Fin 3) (Fin 3) ℝ := !![1, 0, 0; 1, 1, 0; 1, 1, 1]

theorem exX_sum (v : Fin 3) (e : Fin 3 → ℝ) : exX v e = ∑ k, exA v k * e k := by
  fin_cases v <;> simp [exX, exA, Fin.sum_univ_three]

theorem exX_meas (v : Fin 3) : Measurable (exX v) := by
  have : exX v = fun e => ∑ k, exA v k * e k := funext (exX_sum v)
  rw [this]
  fun_prop

theorem exX_memLp (v : Fin 3) (p : NNReal) : MemLp (exX v) p exMu := by
  have : exX v = fun e => ∑ k, exA v k * e k := funext (exX_sum v)
  rw [this]
  refine memLp_finsetSum _ fun k _ => MemLp.const_mul ?_ _
  exact (memLp_id_gaussianReal' p (by simp)).comp_measurePreserving (measurePreserving_eval (fun _ => gaussianReal 0 1) k)

theorem exX_cov (u v : Fin 3) : cov[exX u, exX v; exMu] = exCov u v := by
  have e : ∀ v, exX v = fun e => ∑ k, exA v k * e k := fun v => funext (exX_sum v)
  have h2 : ∀ u k, MemLp (fun e : Fin 3 → ℝ => exA u k * e k) 2 exMu := fun u k => (exEval k).const_mul _
  have hc : ∀ k l : Fin 3, cov[fun e : Fin 3 → ℝ => e k, fun e => e l; exMu] = if k = l then 1 else 0 := by
    intro k l
    split
    · next h =>
      subst h
      rw [covariance_self (exEval k).aemeasurable]
      have := (measurePreserving_eval (fun _ : Fin 3 => gaussianReal 0 1) k).variance_fun_comp (f := fun x => x) aemeasurable_id
      unfold exMu
      rw [this]
      have h2 := variance_fun_id_gaussianReal (μ := 0) (v := 1)
      simp [h2]
    · next h =>
      have := (iIndepFun_pi (μ := fun _ : Fin 3 => gaussianReal 0 1) (X := fun _ x => x) (fun _ => aemeasurable_id)).indepFun h
      exact this.covariance_eq_zero (exEval k) (exEval l)
  rw [e, e, covariance_fun_sum_fun_sum (h2 u) (h2 v)]
  simp only [covariance_const_mul_left, covariance_const_mul_right, hc]
  fin_cases u <;> fin_cases v <;> simp [exA, exCov, Fin.sum_univ_three] <;> norm_num

/-- Records drawn from the chain with normal errors `E`. -/
theorem exErrors : ∃ (Ω : Type) (_ : MeasurableSpace Ω) (P : Measure Ω) (_ : IsProbabilityMeasure P) (E : ℕ → Ω → Fin 3 → ℝ),
    (∀ s, Measurable (E s)) ∧ (∀ s, HasLaw (E s) exMu P) ∧ Drawn P (fun s ω v => exX v (E s ω)) ∧ covOf P (fun s ω v => exX v (E s ω)) = exCov := by
  obtain ⟨Ω, mΩ, P, E, hm, hl, hi, hP⟩ := exists_iid ℕ exMu
  have hf : Measurable fun (e : Fin 3 → ℝ) v => exX v e := measurable_pi_lambda _ fun v => exX_meas v
  refine ⟨Ω, mΩ, P, hP, E, hm, hl, ⟨hi.comp (fun _ e v => exX v e) fun _ => hf, fun s => ?_, fun v => ?_⟩, ?_⟩
  · have : IdentDistrib (E s) (E 0) P P := ⟨(hm s).aemeasurable, (hm 0).aemeasurable, by rw [(hl s).map_eq, (hl 0).map_eq]⟩
    exact this.comp hf
  · exact (exX_memLp v 4).comp_measurePreserving ((hl 0).measurePreserving (hm 0))
  · ext a b
    unfold covOf
    rw [of_apply, (hl 0).covariance_fun_comp (exX_meas a).aemeasurable (exX_meas b).aemeasurable]
    exact exX_cov a b

theorem exDrawn : ∃ (Ω : Type) (_ : MeasurableSpace Ω) (P : Measure Ω) (_ : IsProbabilityMeasure P) (X : ℕ → Ω → Fin 3 → ℝ), Drawn P X ∧ covOf P X = exCov := by
  obtain ⟨Ω, mΩ, P, hP, E, _, _, h⟩ := exErrors
  exact ⟨Ω, mΩ, P, hP, _, h⟩

example : ∃ (Ω : Type) (_ : MeasurableSpace Ω) (P : Measure Ω) (X : ℕ → Ω → Fin 3 → ℝ),
    Tendsto (fun N => P {ω | ∃ score : Fin 3 → List (Fin 3) → ℝ,
      (∀ j l, l.Nodup → j ∉ l → bic (corrcoef (data X N ω)) N 1 j l = .ok (score j l)) ∧
      ∃ (g : Graph (Fin 3)) (s : ℝ) (M : Nat), (∀ m, M ≤ m → fit m id 5 score (List.finRange 3) = .ok (g, s)) ∧
        g.nodes = List.finRange 3 ∧ IsCpdag exR g ∧ DagScore score (List.finRange 3) exR s}) atTop (𝓝 1) := by
  obtain ⟨Ω, mΩ, P, hP, X, hX, hC⟩ := exDrawn
  exact ⟨Ω, mΩ, P, X, c172_ges (by norm_num) hX exAcyclic (hC ▸ exLinear) (hC ▸ exFaithful) one_pos (fun l => List.Perm.refl l) (by norm_num)⟩

theorem exLevel : Tendsto (fun N : ℕ => √(√(N : ℝ))) atTop atTop ∧ Tendsto (fun N : ℕ => √(√(N : ℝ)) / √(N : ℝ)) atTop (𝓝 0) := by
  have h : Tendsto (fun N : ℕ => √(√(N : ℝ))) atTop atTop :=
    Real.tendsto_sqrt_atTop.comp (Real.tendsto_sqrt_atTop.comp tendsto_natCast_atTop_atTop)
  refine ⟨h, h.inv_tendsto_atTop.congr fun N => ?_⟩
  by_cases h0 : √(N : ℝ) = 0
  · simp [h0]
  · have := lt_of_le_of_ne (Real.sqrt_nonneg (N : ℝ)) (Ne.symm h0)
    have h1 := Real.sqrt_pos.2 this
    have h2 := Real.mul_self_sqrt this.le
    simp only [Pi.inv_apply]
    rw [eq_div_iff h0, inv_mul_eq_iff_eq_mul₀ h1.ne', h2]

example : ∃ (Ω : Type) (_ : MeasurableSpace Ω) (P : Measure Ω) (X : ℕ → Ω → Fin 3 → ℝ),
    Tendsto (fun N => P {ω | ∃ r st' c, pcFit adjacencySearch (fisherTest exFwd.nodes (corrcoef (data X N ω)) N) exFwd.nodes
      (.val (2 * (1 - normCdf √(√(N : ℝ))))) [] = .ok (r, st') ∧
      dag2cpdag id exFwd = .ok c ∧ r.causal.graphEqual c = .ok true ∧ ∀ u v, r.causal.getEdge u v = c.getEdge u v}) atTop (𝓝 1) := by
  obtain ⟨Ω, mΩ, P, hP, X, hX, hC⟩ := exDrawn
  exact ⟨Ω, mΩ, P, X, c172_pc (G := exFwd) (X := X) hX exFwd_reach (acyclic_of_check exFwd_reach (by decide +kernel)) (by rw [exFwd_R]; exact hC ▸ exLinear)
    (by rw [exFwd_R]; exact hC ▸ exFaithful) (fun l => List.Perm.refl l) exLevel.1 exLevel.2 (Or.inl rfl)⟩

example : ∃ (Ω : Type) (_ : MeasurableSpace Ω) (P : Measure Ω) (X : ℕ → Ω → Fin 3 → ℝ),
    Tendsto (fun N => P {ω | ∃ r st', pcFit fastAdjacencySearch (fisherTest exFwd.nodes (corrcoef (data X N ω)) N) exFwd.nodes (.val (1 / 20)) [] = .ok (r, st') ∧
      ∀ u v, Adj (Dir exFwd) u v → Conn r.causal u v}) atTop (𝓝 1) := by
  obtain ⟨Ω, mΩ, P, hP, X, hX, hC⟩ := exDrawn
  exact ⟨Ω, mΩ, P, X, c172_kept (G := exFwd) (X := X) hX exFwd_reach (acyclic_of_check exFwd_reach (by decide +kernel)) (by rw [exFwd_R]; exact hC ▸ exLinear)
    (by rw [exFwd_R]; exact hC ▸ exFaithful) (by norm_num) (Or.inr rfl)⟩

end examples

end Cdmir.Consistency
