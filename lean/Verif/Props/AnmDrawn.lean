import Verif.Props.MedianTest
import Verif.Props.SpectralTest
import Verif.Props.Anm

/-! C183: the score of ANM.py on drawn records. If all rows were used the score would tell a dependent residual from an independent one; as only 2000 are used, its distribution does not
change with more records. -/

namespace Cdmir.AnmDrawn
open BigOperators KTest MedianWidth SpectralTest MeasureTheory ProbabilityTheory Filter
open scoped Topology

variable {n d e : Nat}

section limit
variable {Ω : Type} [MeasurableSpace Ω] {P : Measure Ω} [IsProbabilityMeasure P]

theorem fast_stat {X Y : Data n 1} {w v : ℝ} (hX : kernelOf X = some (gaussianWidth w X)) (hY : kernelOf Y = some (gaussianWidth v Y)) :
    fastHsicOf X Y = hsicStat (center (gaussianWidth w X)) (center (gaussianWidth v Y)) / n := by
  have e := statOf_eq (L := center (gaussianWidth v Y)) (psd_symm (center_psd (kernelOf_some hX).1))
  rw [fastHsicOf_eq, hX, hY, ← e]
  unfold fastOf statOf
  ring

theorem vstat_stat {w v : ℝ} (X Y : Data n 1) : HsicTest.vStat (gaussianWidth w X) (gaussianWidth v Y) = hsicStat (center (gaussianWidth w X)) (center (gaussianWidth v Y)) := by
  unfold HsicTest.vStat
  rw [centerKernelMatrix_eq (gaussianWidth_symm w _), centerKernelMatrix_eq (gaussianWidth_symm v _)]
  rfl

/-- C183. If residual and cause are dependent the score over all rows grows at least in proportion to their number. -/
theorem c183_dependent {X Y : ℕ → Ω → Fin 1 → ℝ} (h : DrawnPairs P X Y) (hdep : ¬ IndepFun (X 0) (Y 0) P) :
    ∃ c > 0, ∀ᵐ ω ∂P, ∀ᶠ N : ℕ in atTop, c * N ≤ fastHsicOf (upto X N ω) (upto Y N ω) := by
  obtain ⟨a, a', ha, haa, hX⟩ := kernel_bounds h hdep
  obtain ⟨b, b', hb, hbb, hY⟩ := kernel_bounds h.swap fun hi => hdep hi.symm
  obtain ⟨D, hD0, hD, hl⟩ := c178_vstat ha hb h
  have hDpos : 0 < D := lt_of_le_of_ne hD0 fun h0 => hdep (hD.1 h0.symm)
  have ha' := ha.trans_le haa
  have hb' := hb.trans_le hbb
  refine ⟨√(a / a') * √(b / b') * (D / 2), by positivity, ?_⟩
  filter_upwards [hX, hY, hl] with ω h1 h2 h3
  filter_upwards [h1, h2, h3.eventually (lt_mem_nhds (by linarith : D / 2 < D)), eventually_ge_atTop 1] with N k1 k2 k3 k5
  obtain ⟨w, hw1, hw2, hw3⟩ := k1
  obtain ⟨v, hv1, hv2, hv3⟩ := k2
  have hN : (0 : ℝ) < N := by exact_mod_cast (by omega : 0 < N)
  have hw0 := ha.trans_le hw1
  have hv0 := hb.trans_le hv1
  have s1 := stat_width (upto X N ω) (upto Y N ω) ha hw1 hb hv1
  rw [vstat_stat, lt_div_iff₀ (by positivity)] at k3
  have e1 : √(a / a') ≤ √(a / w) := Real.sqrt_le_sqrt (div_le_div_of_nonneg_left ha.le hw0 hw2)
  have e2 : √(b / b') ≤ √(b / v) := Real.sqrt_le_sqrt (div_le_div_of_nonneg_left hb.le hv0 hv2)
  have e3 := mul_le_mul e1 e2 (Real.sqrt_nonneg _) (Real.sqrt_nonneg _)
  have e4 := mul_le_mul e3 k3.le (by positivity) (by positivity)
  rw [fast_stat hw3 hv3, le_div_iff₀ hN]
  linarith

omit [IsProbabilityMeasure P] in
theorem drawn_self {X : ℕ → Ω → Fin d → ℝ} {Y : ℕ → Ω → Fin e → ℝ} (h : DrawnPairs P X Y) : DrawnPairs P X X :=
  ⟨h.measX, h.measX, h.indep.comp (fun _ z => (z.1, z.1)) fun _ => by fun_prop, fun s => (h.ident s).comp (by fun_prop : Measurable fun z : (Fin d → ℝ) × (Fin e → ℝ) => (z.1, z.1))⟩

omit [IsProbabilityMeasure P] in
/-- A constant sample has no kernel. -/
theorem const_none {X : ℕ → Ω → Fin d → ℝ} {Y : ℕ → Ω → Fin e → ℝ} (h : DrawnPairs P X Y) {c : Fin d → ℝ} (hc : X 0 =ᵐ[P] fun _ => c) :
    ∀ᵐ ω ∂P, ∀ N, kernelOf (upto X N ω) = none := by
  have h1 : ∀ᵐ ω ∂P, ∀ s, X s ω = c := ae_all_iff.2 fun s => by
    have h2 : IdentDistrib (X s) (X 0) P P := (h.ident s).comp (by fun_prop : Measurable fun z : (Fin d → ℝ) × (Fin e → ℝ) => z.1)
    exact h2.symm.ae_snd (measurableSet_singleton c) hc
  filter_upwards [h1] with ω hω N
  exact kernelOf_none.2 fun i j => by simp only [upto, hω]

/-- C183. If they are independent the score over all rows, divided by their number, tends to zero. -/
theorem c183_independent {X Y : ℕ → Ω → Fin 1 → ℝ} (h : DrawnPairs P X Y) (hind : IndepFun (X 0) (Y 0) P) :
    ∀ᵐ ω ∂P, Tendsto (fun N : ℕ => fastHsicOf (upto X N ω) (upto Y N ω) / N) atTop (𝓝 0) := by
  by_cases cX : IndepFun (X 0) (X 0) P
  · obtain ⟨c, hc⟩ := const_of_self (h.measX 0) cX
    filter_upwards [const_none h hc] with ω hω
    simp [fastHsicOf_eq, hω, fastOf]
  by_cases cY : IndepFun (Y 0) (Y 0) P
  · obtain ⟨c, hc⟩ := const_of_self (h.measY 0) cY
    filter_upwards [const_none h.swap hc] with ω hω
    simp [fastHsicOf_eq, hω, fastOf_none]
  obtain ⟨a, a', ha, haa, hX⟩ := kernel_bounds (drawn_self h) cX
  obtain ⟨b, b', hb, hbb, hY⟩ := kernel_bounds (drawn_self h.swap) cY
  have ha' := ha.trans_le haa
  have hb' := hb.trans_le hbb
  obtain ⟨D, hD0, hD, hl⟩ := c178_vstat ha' hb' h
  rw [hD.2 hind] at hl
  filter_upwards [hX, hY, hl] with ω h1 h2 h3
  have h4 := h3.const_mul (√(a / a') * √(b / b'))⁻¹
  rw [mul_zero] at h4
  refine tendsto_of_tendsto_of_tendsto_of_le_of_le' tendsto_const_nhds h4 (Eventually.of_forall fun N => ?_) ?_
  · rw [fastHsicOf_eq]
    exact div_nonneg (fastOf_nonneg _ _) (Nat.cast_nonneg N)
  filter_upwards [h1, h2, eventually_ge_atTop 1] with N k1 k2 k5
  obtain ⟨w, hw1, hw2, hw3⟩ := k1
  obtain ⟨v, hv1, hv2, hv3⟩ := k2
  have hN : (0 : ℝ) < N := by exact_mod_cast (by omega : 0 < N)
  have hw0 := ha.trans_le hw1
  have hv0 := hb.trans_le hv1
  have s1 := stat_width (upto X N ω) (upto Y N ω) hw0 hw2 hv0 hv2
  have e1 : √(a / a') ≤ √(w / a') := Real.sqrt_le_sqrt (div_le_div_of_nonneg_right hw1 ha'.le)
  have e2 : √(b / b') ≤ √(v / b') := Real.sqrt_le_sqrt (div_le_div_of_nonneg_right hv1 hb'.le)
  have e3 := mul_le_mul e1 e2 (Real.sqrt_nonneg _) (Real.sqrt_nonneg _)
  have e5 := stat_nonneg (center_psd (width_gauss_psd (upto X N ω) hw0.le)) (center_psd (width_gauss_psd (upto Y N ω) hv0.le))
  have e4 := (mul_le_mul_of_nonneg_right e3 e5).trans s1
  rw [fast_stat hw3 hv3, vstat_stat, div_div, ← pow_two, ← mul_div_assoc]
  refine div_le_div_of_nonneg_right ?_ (by positivity)
  rw [le_inv_mul_iff₀ (by positivity)]
  exact e4

/-- C183. With all rows, the direction whose residual is independent of the cause has the lesser score from some number of records on, if that of the other direction is not. -/
theorem c183_direction {E X R Y : ℕ → Ω → Fin 1 → ℝ} (h : DrawnPairs P E X) (hind : IndepFun (E 0) (X 0) P) (h' : DrawnPairs P R Y) (hdep : ¬ IndepFun (R 0) (Y 0) P) :
    ∀ᵐ ω ∂P, ∀ᶠ N : ℕ in atTop, fastHsicOf (upto E N ω) (upto X N ω) < fastHsicOf (upto R N ω) (upto Y N ω) := by
  obtain ⟨c, hc, hd⟩ := c183_dependent h' hdep
  filter_upwards [c183_independent h hind, hd] with ω h1 h2
  filter_upwards [h1.eventually (gt_mem_nhds hc), h2, eventually_ge_atTop 1] with N k1 k2 k3
  have hN : (0 : ℝ) < N := by exact_mod_cast (by omega : 0 < N)
  rw [div_lt_iff₀ hN] at k1
  linarith

end limit

section meas

theorem sorted_le {s : List ℝ} (hs : s.Pairwise (· ≤ ·)) (t : ℝ) {k : Nat} (hk : k < s.length) : s[k] ≤ t ↔ k < s.countP fun x => decide (x ≤ t) := by
  have hmono : ∀ i j (hi : i < s.length) (hj : j < s.length), i ≤ j → s[i] ≤ s[j] := fun i j hi hj hij => by
    rcases hij.eq_or_lt with rfl | hlt
    · exact le_refl _
    · exact List.pairwise_iff_getElem.1 hs i j hi hj hlt
  constructor
  · intro h
    exact take_count (k := k + 1) (by omega) fun i hi hik => by
      simpa using (hmono i k hi hk (by omega)).trans h
  · intro h
    by_contra hno
    have h1 := drop_count (s := s) (p := fun x => !decide (x ≤ t)) (k := k) fun i hi hki => by
      simpa using (not_le.1 hno).trans_le (hmono k i hk hi hki)
    have h2 := List.length_eq_countP_add_countP (fun x => decide (x ≤ t)) (l := s)
    have h3 : s.countP (fun x => !decide (x ≤ t)) = s.countP fun x => decide ¬ (decide (x ≤ t) = true) := by
      congr 1
      funext x
      by_cases hx : x ≤ t <;> simp [hx]
    omega

theorem count_meas (p : ℝ → Bool) (hp : MeasurableSet {x | p x = true}) : Measurable fun D : Fin n → Fin n → ℝ => (upper D).countP p := by
  simp only [upper_count]
  refine Finset.measurable_sum _ fun i _ => Finset.measurable_sum _ fun j _ => ?_
  have hm : Measurable fun D : Fin n → Fin n → ℝ => D i j := by fun_prop
  refine Measurable.ite ?_ measurable_const measurable_const
  exact (MeasurableSet.const (i < j)).inter ((measurableSet_lt measurable_const hm).inter (hm hp))

theorem length_meas : Measurable fun D : Fin n → Fin n → ℝ => (upper D).length := by
  have := count_meas (n := n) (fun _ => true) (by simp)
  simpa using this

theorem place_meas (k : Nat) : Measurable fun D : Fin n → Fin n → ℝ => ((upper D).insertionSort (· ≤ ·)).getD k 0 := by
  refine measurable_of_Iic fun t => ?_
  have e : (fun D : Fin n → Fin n → ℝ => ((upper D).insertionSort (· ≤ ·)).getD k 0) ⁻¹' Set.Iic t =
      {D | k < (upper D).length ∧ k < (upper D).countP fun x => decide (x ≤ t)} ∪ {D | (upper D).length ≤ k ∧ 0 ≤ t} := by
    ext D
    have hp := List.perm_insertionSort (· ≤ ·) (upper D)
    have hlen := hp.length_eq
    simp only [Set.mem_preimage, Set.mem_Iic, Set.mem_union, Set.mem_ofPred_eq]
    rw [← hp.countP_eq]
    by_cases hk : k < (upper D).length
    · have hk' : k < ((upper D).insertionSort (· ≤ ·)).length := by omega
      rw [List.getD_eq_getElem?_getD, List.getElem?_eq_getElem hk', Option.getD_some, sorted_le (List.pairwise_insertionSort _ _) t hk']
      simp [hk]
    · rw [List.getD_eq_getElem?_getD, List.getElem?_eq_none (by omega), Option.getD_none]
      simp [hk, not_lt.1 hk]
  rw [e]
  have m1 := length_meas (n := n)
  have m2 := count_meas (n := n) (fun x => decide (x ≤ t)) (by simp only [decide_eq_true_eq]; exact measurableSet_Iic)
  exact ((measurableSet_lt measurable_const m1).inter (measurableSet_lt measurable_const m2)).union ((measurableSet_le m1 measurable_const).inter (MeasurableSet.const _))

/-- The median, or 0. -/
noncomputable def med (D : Fin n → Fin n → ℝ) : ℝ := (median (upper D)).getD 0

theorem med_meas : Measurable (med (n := n)) := by
  obtain ⟨g, hg⟩ : ∃ g : ℕ → (Fin n → Fin n → ℝ) → ℝ, g = fun L D => if L = 0 then 0 else if L % 2 = 1 then ((upper D).insertionSort (· ≤ ·)).getD (L / 2) 0
      else (((upper D).insertionSort (· ≤ ·)).getD (L / 2 - 1) 0 + ((upper D).insertionSort (· ≤ ·)).getD (L / 2) 0) / 2 := ⟨_, rfl⟩
  have hgm : ∀ L, Measurable (g L) := fun L => by
    rw [hg]
    simp only
    split
    · exact measurable_const
    · split
      · exact place_meas _
      · exact ((place_meas _).add (place_meas _)).div_const 2
  have h1 : Measurable fun q : ℕ × (Fin n → Fin n → ℝ) => g q.1 q.2 := measurable_from_prod_countable_right hgm
  have h2 : med (n := n) = fun D => g (upper D).length D := by
    funext D
    rw [hg]
    unfold med median
    simp only [List.length_eq_zero_iff]
    split
    · rfl
    · split <;> rfl
  rw [h2]
  exact h1.comp (length_meas.prodMk measurable_id)

theorem fast_formula (X : Data n d) (Y : Data n e) : fastHsicOf X Y = if (upper (sqDist X)).length = 0 ∨ (upper (sqDist Y)).length = 0 then 0
    else 1 / (n : ℝ) * ∑ i, ∑ j, center (expMat X (med (sqDist X))) j i * center (expMat Y (med (sqDist Y))) i j := by
  have hno : ∀ {d : Nat} (X : Data n d), (upper (sqDist X)).length = 0 → kernelOf X = none := fun X h => by
    rw [kernelOf_eq, median_none.2 (List.length_eq_zero_iff.1 h)]
    rfl
  have hso : ∀ {d : Nat} (X : Data n d), (upper (sqDist X)).length ≠ 0 → kernelOf X = some (expMat X (med (sqDist X))) := fun X h => by
    rw [kernelOf_eq]
    unfold med
    cases hm : median (upper (sqDist X)) with
    | none => exact absurd (List.length_eq_zero_iff.2 (median_none.1 hm)) h
    | some m => rfl
  rw [fastHsicOf_eq]
  split
  · rename_i h
    rcases h with h | h
    · rw [hno X h]
      rfl
    · rw [hno Y h, fastOf_none]
  · rename_i h
    push Not at h
    rw [hso X h.1, hso Y h.2]
    rfl

theorem fast_meas : Measurable fun q : Data n d × Data n e => fastHsicOf q.1 q.2 := by
  simp only [fast_formula]
  have hd : ∀ {d : Nat}, Measurable fun X : Data n d => (sqDist X : Fin n → Fin n → ℝ) := fun {d} =>
    measurable_pi_lambda _ fun i => measurable_pi_lambda _ fun j => by
      unfold sqDist
      have m1 : ∀ i k, Measurable fun X : Data n d => X i k := fun i k => (measurable_pi_apply k).comp (measurable_pi_apply i)
      exact Finset.measurable_sum _ fun k _ => ((m1 i k).sub (m1 j k)).pow_const 2
  have hl : ∀ {d : Nat}, Measurable fun X : Data n d => (upper (sqDist X)).length := fun {d} => length_meas.comp hd
  have hk : ∀ {d : Nat} (i j : Fin n), Measurable fun X : Data n d => center (expMat X (med (sqDist X))) i j := fun {d} i j => by
    have h1 : ∀ a b, Measurable fun X : Data n d => expMat X (med (sqDist X)) a b := fun a b =>
      (Real.measurable_exp.comp (((med_meas.comp hd).inv.mul ((measurable_pi_apply b).comp ((measurable_pi_apply a).comp hd))).neg))
    unfold center
    simp only [Matrix.mul_apply]
    refine Finset.measurable_sum _ fun a _ => ?_
    exact (Finset.measurable_sum _ fun b _ => (h1 b a).const_mul _).mul_const _
  refine Measurable.ite ?_ measurable_const ?_
  · exact ((hl.comp measurable_fst) (measurableSet_singleton 0)).union ((hl.comp measurable_snd) (measurableSet_singleton 0))
  · refine (Finset.measurable_sum _ fun i _ => Finset.measurable_sum _ fun j _ => ?_).const_mul _
    exact ((hk j i).comp measurable_fst).mul ((hk i j).comp measurable_snd)

end meas

section cap
variable {Ω : Type} [MeasurableSpace Ω] {P : Measure Ω} [IsProbabilityMeasure P]

theorem rows_nodup {q : Nat} (hq : 2 ≤ q) (hn : q < n) : (rows n q).Nodup ∧ (rows n q).length = q := by
  obtain ⟨h1, h2, h3, -, -⟩ := c87_rows hq hn
  have e : (rows n q).map Fin.val = kept n q := by
    unfold rows
    rw [if_neg (by omega), List.map_filterMap]
    have : ∀ i ∈ kept n q, Option.map Fin.val (if h : i < n then some (⟨i, h⟩ : Fin n) else none) = some i := fun i hi => by
      rw [dif_pos (h3 i hi)]
      rfl
    rw [List.filterMap_congr this]
    simp
  refine ⟨List.Nodup.of_map Fin.val ?_, ?_⟩
  · rw [e]
    exact h2.imp fun h => h.ne
  · have h4 := congrArg List.length e
    rwa [List.length_map, h1] at h4

/-- Different rows have the distribution of the first rows. -/
theorem rows_law {X : ℕ → Ω → Fin d → ℝ} {Y : ℕ → Ω → Fin e → ℝ} (h : DrawnPairs P X Y) {l : List (Fin n)} (hl : l.Nodup) :
    P.map (fun ω (a : Fin l.length) => (X (l.get a) ω, Y (l.get a) ω)) = P.map (fun ω (a : Fin l.length) => (X a ω, Y a ω)) := by
  have hm : ∀ s, AEMeasurable (fun ω => (X s ω, Y s ω)) P := fun s => ((h.measX s).prodMk (h.measY s)).aemeasurable
  have i1 := h.indep.precomp (g := fun a : Fin l.length => (l.get a : Nat)) fun a b hab => hl.injective_get (Fin.ext hab)
  have i2 := h.indep.precomp (g := fun a : Fin l.length => (a : Nat)) fun a b hab => Fin.ext hab
  have e1 := (iIndepFun_iff_map_fun_eq_pi_map fun a => hm _).1 i1
  have e2 := (iIndepFun_iff_map_fun_eq_pi_map fun a => hm _).1 i2
  refine e1.trans (Eq.trans ?_ e2.symm)
  congr 1
  funext a
  exact (h.ident _).map_eq.trans (h.ident _).map_eq.symm

/-- What is computed from different rows has the distribution of what is computed from the first rows. -/
theorem take_law {X : ℕ → Ω → Fin d → ℝ} {Y : ℕ → Ω → Fin e → ℝ} (h : DrawnPairs P X Y) {l : List (Fin n)} (hl : l.Nodup) {u : Data l.length d × Data l.length e → Prop}
    (hu : MeasurableSet {q | u q}) : P {ω | u (take l (upto X n ω), take l (upto Y n ω))} = P {ω | u (upto X l.length ω, upto Y l.length ω)} := by
  have hm : Measurable fun Z : Fin l.length → (Fin d → ℝ) × (Fin e → ℝ) => ((fun a => (Z a).1 : Data l.length d), (fun a => (Z a).2 : Data l.length e)) :=
    (measurable_pi_lambda _ fun a => (measurable_pi_apply a).fst).prodMk (measurable_pi_lambda _ fun a => (measurable_pi_apply a).snd)
  have h1 := congrArg (fun μ => μ ((fun Z : Fin l.length → (Fin d → ℝ) × (Fin e → ℝ) => ((fun a => (Z a).1 : Data l.length d), (fun a => (Z a).2 : Data l.length e))) ⁻¹' {q | u q})) (rows_law h hl)
  rwa [Measure.map_apply (measurable_pi_lambda _ fun a => (h.measX _).prodMk (h.measY _)) (hm hu), Measure.map_apply (measurable_pi_lambda _ fun a => (h.measX _).prodMk (h.measY _)) (hm hu)] at h1

theorem rows_cap {q : Nat} (hq : 2 ≤ q) {N : ℕ} (hN : q ≤ N) : (rows N q).Nodup ∧ (rows N q).length = q := by
  rcases hN.eq_or_lt with rfl | hlt
  · have : rows q q = List.finRange q := if_pos le_rfl
    rw [this]
    exact ⟨List.nodup_finRange _, List.length_finRange⟩
  · exact rows_nodup hq hlt

theorem cap_law {q : Nat} (hq : 2 ≤ q) {X : ℕ → Ω → Fin d → ℝ} {Y : ℕ → Ω → Fin e → ℝ} (h : DrawnPairs P X Y) {N : ℕ} (hN : q ≤ N) {u : (n : Nat) → Data n d × Data n e → Prop}
    (hu : ∀ n, MeasurableSet {q | u n q}) : P {ω | u _ (take (rows N q) (upto X N ω), take (rows N q) (upto Y N ω))} = P {ω | u q (upto X q ω, upto Y q ω)} := by
  have hr := rows_cap hq hN
  rw [take_law h hr.1 (hu _), hr.2]

theorem norm_fast (X : Data n d) (Y : Data n e) : normalizedHsic X Y = fastHsicOf (take (rows n 2000) X) (take (rows n 2000) Y) := by
  rw [normalizedHsic_eq, fastHsicOf_eq]

/-- One column of the records. -/
def pick (k : Fin d) (X : Data n d) : Data n 1 := fun i _ => X i k

theorem take_pick (k : Fin d) (l : List (Fin n)) (X : Data n d) : take l (pick k X) = pick k (take l X) := rfl

theorem pick_meas (k : Fin d) : Measurable (pick (n := n) k) :=
  measurable_pi_lambda _ fun i => measurable_pi_lambda _ fun _ => (measurable_pi_apply k).comp (measurable_pi_apply i)

/-- C183. Expected: more records make the score more certain. False: from 2000 records on the score of residuals and causes has the same distribution for every number of records, -/
theorem c183_cap_false {X : ℕ → Ω → Fin d → ℝ} {Y : ℕ → Ω → Fin e → ℝ} (h : DrawnPairs P X Y) {N : ℕ} (hN : 2000 ≤ N) {B : Set ℝ} (hB : MeasurableSet B) :
    P {ω | normalizedHsic (upto X N ω) (upto Y N ω) ∈ B} = P {ω | fastHsicOf (upto X 2000 ω) (upto Y 2000 ω) ∈ B} := by
  simp only [norm_fast]
  exact cap_law (by norm_num) h hN (u := fun n q => fastHsicOf q.1 q.2 ∈ B) fun n => fast_meas hB

/-- The second direction has the lesser score. -/
def Second (n : Nat) (q : Data n 2 × Data n 2) : Prop := fastHsicOf (pick 1 q.1) (pick 1 q.2) < fastHsicOf (pick 0 q.1) (pick 0 q.2)

theorem picks_meas (k : Fin d) : Measurable fun q : Data n d × Data n d => (pick k q.1, pick k q.2) := by
  have h1 : Measurable fun q : Data n d × Data n d => pick k q.1 := (pick_meas k).comp measurable_fst
  have h2 : Measurable fun q : Data n d × Data n d => pick k q.2 := (pick_meas k).comp measurable_snd
  exact h1.prodMk h2

theorem fast_pick_meas (k : Fin d) : Measurable fun q : Data n d × Data n d => fastHsicOf (pick k q.1) (pick k q.2) := by
  have h := (fast_meas (n := n) (d := 1) (e := 1)).comp (picks_meas (n := n) k)
  simpa only [Function.comp_def] using h

theorem second_meas (n : Nat) : MeasurableSet {q | Second n q} := measurableSet_lt (fast_pick_meas 1) (fast_pick_meas 0)

theorem second_norm (R C : Data n 2) : normalizedHsic (pick 1 R) (pick 1 C) < normalizedHsic (pick 0 R) (pick 0 C) ↔ Second _ (take (rows n 2000) R, take (rows n 2000) C) := by
  rw [norm_fast, norm_fast, take_pick, take_pick, take_pick, take_pick]
  exact Iff.rfl

/-- and so has the comparison of the two directions. `R` are the residuals of the two directions, `C` the causes. -/
theorem c183_wrong_false {R C : ℕ → Ω → Fin 2 → ℝ} (h : DrawnPairs P R C) {N : ℕ} (hN : 2000 ≤ N) :
    P {ω | normalizedHsic (pick 1 (upto R N ω)) (pick 1 (upto C N ω)) < normalizedHsic (pick 0 (upto R N ω)) (pick 0 (upto C N ω))} =
      P {ω | fastHsicOf (pick 1 (upto R 2000 ω)) (pick 1 (upto C 2000 ω)) < fastHsicOf (pick 0 (upto R 2000 ω)) (pick 0 (upto C 2000 ω))} := by
  simp only [second_norm]
  exact cap_law (by norm_num) h hN second_meas

end cap

section examples

/-- Two independent normal variables. -/
theorem exIndep : ∃ (Ω : Type) (_ : MeasurableSpace Ω) (P : Measure Ω) (_ : IsProbabilityMeasure P) (E X : ℕ → Ω → Fin 1 → ℝ),
    DrawnPairs P E X ∧ IndepFun (E 0) (X 0) P ∧ ¬ IndepFun (X 0) (X 0) P := by
  obtain ⟨Ω, mΩ, P, Z, hm, hl, hi, hP⟩ := exists_iid ℕ ((freq 1).prod (freq 1))
  have hlaw : ∀ {A : Set ((Fin 1 → ℝ) × (Fin 1 → ℝ))}, MeasurableSet A → P (Z 0 ⁻¹' A) = ((freq 1).prod (freq 1)) A := fun hA => by
    rw [← (hl 0).map_eq, Measure.map_apply (hm 0) hA]
  have hl2 : ∀ {A : Set (Fin 1 → ℝ)}, MeasurableSet A → P ((fun ω => (Z 0 ω).2) ⁻¹' A) = freq 1 A := fun {A} hA => by
    have := hlaw (MeasurableSet.univ.prod hA)
    rw [Measure.prod_prod, measure_univ, one_mul] at this
    rw [← this]
    congr 1
    ext ω
    simp
  have hl1 : ∀ {A : Set (Fin 1 → ℝ)}, MeasurableSet A → P ((fun ω => (Z 0 ω).1) ⁻¹' A) = freq 1 A := fun {A} hA => by
    have := hlaw (hA.prod MeasurableSet.univ)
    rw [Measure.prod_prod, measure_univ, mul_one] at this
    rw [← this]
    congr 1
    ext ω
    simp
  refine ⟨Ω, mΩ, P, hP, fun k w => (Z k w).1, fun k w => (Z k w).2, ⟨fun s => (hm s).fst, fun s => (hm s).snd, hi, fun s => (hl s).identDistrib (hl 0)⟩, ?_, fun hself => ?_⟩
  · refine indepFun_iff_measure_inter_preimage_eq_mul.2 fun A B hA hB => ?_
    rw [hl1 hA, hl2 hB, ← Measure.prod_prod, ← hlaw (hA.prod hB)]
    rfl
  · have o1 : IsOpen {x : Fin 1 → ℝ | 0 < x 0} := isOpen_lt continuous_const (continuous_apply 0)
    have o2 : IsOpen {x : Fin 1 → ℝ | x 0 < 0} := isOpen_lt (continuous_apply 0) continuous_const
    have h1 := indepFun_iff_measure_inter_preimage_eq_mul.1 hself _ _ o1.measurableSet o2.measurableSet
    have h0 : (fun ω => (Z 0 ω).2) ⁻¹' {x : Fin 1 → ℝ | 0 < x 0} ∩ (fun ω => (Z 0 ω).2) ⁻¹' {x : Fin 1 → ℝ | x 0 < 0} = ∅ := by
      ext ω
      simp only [Set.mem_inter_iff, Set.mem_preimage, Set.mem_ofPred_eq, Set.mem_empty_iff_false, iff_false, not_and, not_lt]
      exact fun h => h.le
    rw [h0, measure_empty, hl2 o1.measurableSet, hl2 o2.measurableSet] at h1
    have p1 := o1.measure_pos (freq 1) ⟨fun _ => 1, by simp⟩
    have p2 := o2.measure_pos (freq 1) ⟨fun _ => -1, by simp⟩
    exact mul_ne_zero p1.ne' p2.ne' h1.symm

/-- Noise and cause are independent; the residual of predicting the cause by zero is the cause. -/
example : ∃ (Ω : Type) (_ : MeasurableSpace Ω) (P : Measure Ω) (E X : ℕ → Ω → Fin 1 → ℝ),
    (∀ᵐ ω ∂P, ∀ᶠ N : ℕ in atTop, fastHsicOf (upto E N ω) (upto X N ω) < fastHsicOf (upto X N ω) (upto X N ω)) ∧
    (∀ᵐ ω ∂P, Tendsto (fun N : ℕ => fastHsicOf (upto E N ω) (upto X N ω) / N) atTop (𝓝 0)) ∧
    (∃ c > 0, ∀ᵐ ω ∂P, ∀ᶠ N : ℕ in atTop, c * N ≤ fastHsicOf (upto X N ω) (upto X N ω)) ∧
    ∀ B, MeasurableSet B → P {ω | normalizedHsic (upto E 5000 ω) (upto X 5000 ω) ∈ B} = P {ω | fastHsicOf (upto E 2000 ω) (upto X 2000 ω) ∈ B} := by
  obtain ⟨Ω, mΩ, P, hP, E, X, h, hi, hd⟩ := exIndep
  exact ⟨Ω, mΩ, P, E, X, c183_direction h hi (drawn_self h.swap) hd, c183_independent h hi, c183_dependent (drawn_self h.swap) hd, fun B hB => c183_cap_false h (by norm_num) hB⟩

/-- Two directions. -/
example : ∃ (Ω : Type) (_ : MeasurableSpace Ω) (P : Measure Ω) (R C : ℕ → Ω → Fin 2 → ℝ), DrawnPairs P R C ∧
    P {ω | normalizedHsic (pick 1 (upto R 5000 ω)) (pick 1 (upto C 5000 ω)) < normalizedHsic (pick 0 (upto R 5000 ω)) (pick 0 (upto C 5000 ω))} =
      P {ω | normalizedHsic (pick 1 (upto R 9000 ω)) (pick 1 (upto C 9000 ω)) < normalizedHsic (pick 0 (upto R 9000 ω)) (pick 0 (upto C 9000 ω))} := by
  obtain ⟨Ω, mΩ, P, Z, hm, hl, hi, hP⟩ := exists_iid ℕ ((freq 2).prod (freq 2))
  have h : DrawnPairs P (fun k w => (Z k w).1) fun k w => (Z k w).2 := ⟨fun s => (hm s).fst, fun s => (hm s).snd, hi, fun s => (hl s).identDistrib (hl 0)⟩
  exact ⟨Ω, mΩ, P, _, _, h, (c183_wrong_false h (by norm_num)).trans (c183_wrong_false h (by norm_num)).symm⟩

end examples

end Cdmir.AnmDrawn
