import Verif.Model.LocalScore
import Verif.Lemmas.DiffScore
import Mathlib.LinearAlgebra.Matrix.SchurComplement
import Mathlib.Analysis.Matrix.PosDef
import Mathlib.Data.List.NodupEquivFin
import Mathlib.Data.Real.Basic

/-! The BIC score by determinants, the BDeu score by counts over the family and over the parents. -/

namespace Cdmir.LocalScore
open BigOperators Spec

section BIC
variable {n : Nat}

/-- The principal minor of the rows and columns in `S`. -/
noncomputable def minor (C : Matrix (Fin n) (Fin n) ℝ) (S : Finset (Fin n)) : ℝ :=
  (C.submatrix (fun x : {x // x ∈ S} => x.1) (fun x => x.1)).det

theorem blockAt_det (C : Matrix (Fin n) (Fin n) ℝ) {l : List (Fin n)} (hl : l.Nodup) : (blockAt C l).det = minor C l.toFinset := by
  let f : Fin l.length → {x // x ∈ l.toFinset} := fun k => ⟨l.get k, List.mem_toFinset.2 (List.get_mem l k)⟩
  have hf : Function.Bijective f := by
    constructor
    · intro a b h
      exact List.nodup_iff_injective_get.1 hl (Subtype.ext_iff.1 h)
    · rintro ⟨x, hx⟩
      obtain ⟨k, hk⟩ := List.get_of_mem (List.mem_toFinset.1 hx)
      exact ⟨k, Subtype.ext hk⟩
  unfold minor
  rw [← Matrix.det_submatrix_equiv_self (Equiv.ofBijective f hf)]
  rfl

theorem minor_insert {C : Matrix (Fin n) (Fin n) ℝ} (hs : ∀ i j, C i j = C j i) {l : List (Fin n)} (hl : l.Nodup) {j : Fin n}
    (hj : j ∉ l) (hd : (blockAt C l).det ≠ 0) :
    minor C (insert j l.toFinset) = minor C l.toFinset * (C j j - (rowAt C j l * (blockAt C l)⁻¹ * (rowAt C j l).transpose) () ()) := by
  let f : Unit ⊕ Fin l.length → {x // x ∈ insert j l.toFinset} := Sum.elim (fun _ => ⟨j, by simp⟩) fun k =>
    ⟨l.get k, Finset.mem_insert_of_mem (List.mem_toFinset.2 (List.get_mem l k))⟩
  have hf : Function.Bijective f := by
    constructor
    · rintro (a | a) (b | b) h
      · rfl
      · exact absurd (Subtype.ext_iff.1 h) fun k => hj ((show j = l.get b from k) ▸ List.get_mem l b)
      · exact absurd (Subtype.ext_iff.1 h) fun k => hj ((show l.get a = j from k) ▸ List.get_mem l a)
      · exact congrArg Sum.inr (List.nodup_iff_injective_get.1 hl (Subtype.ext_iff.1 h))
    · rintro ⟨x, hx⟩
      rcases Finset.mem_insert.1 hx with rfl | hx
      · exact ⟨.inl (), rfl⟩
      · obtain ⟨k, hk⟩ := List.get_of_mem (List.mem_toFinset.1 hx)
        exact ⟨.inr k, Subtype.ext hk⟩
  unfold minor
  rw [← Matrix.det_submatrix_equiv_self (Equiv.ofBijective f hf)]
  have : (C.submatrix (fun x : {x // x ∈ insert j l.toFinset} => x.1) (fun x => x.1)).submatrix (Equiv.ofBijective f hf) (Equiv.ofBijective f hf) =
      Matrix.fromBlocks (Matrix.of fun _ _ : Unit => C j j) (rowAt C j l) (rowAt C j l).transpose (blockAt C l) := by
    ext a b
    rcases a with a | a <;> rcases b with b | b
    · rfl
    · rfl
    · exact hs _ _
    · rfl
  rw [this]
  have inst : Invertible (blockAt C l) := Matrix.invertibleOfIsUnitDet _ (isUnit_iff_ne_zero.2 hd)
  rw [Matrix.det_fromBlocks₂₂, Matrix.invOf_eq_nonsing_inv]
  have h2 := blockAt_det C hl
  unfold minor at h2
  rw [← h2]
  congr 1
  rw [Matrix.det_unique]
  rfl

theorem minor_pos {C : Matrix (Fin n) (Fin n) ℝ} (hC : C.PosDef) (S : Finset (Fin n)) : 0 < minor C S :=
  (hC.submatrix (e := fun x : {x // x ∈ S} => x.1) Subtype.val_injective).det_pos

theorem minor_empty (C : Matrix (Fin n) (Fin n) ℝ) : minor C ∅ = 1 := by
  unfold minor
  have : IsEmpty {x // x ∈ (∅ : Finset (Fin n))} := ⟨fun x => absurd x.2 (Finset.notMem_empty _)⟩
  exact Matrix.det_isEmpty

theorem posDef_symm {C : Matrix (Fin n) (Fin n) ℝ} (hC : C.PosDef) (i j : Fin n) : C i j = C j i := by
  have := congrFun (congrFun hC.isHermitian i) j
  rw [Matrix.conjTranspose_apply] at this
  simpa using this.symm

/-- The value of the BIC score by determinants. -/
theorem bic_minor {C : Matrix (Fin n) (Fin n) ℝ} (hC : C.PosDef) (h1 : ∀ i, C i i = 1) (N : Nat) (lambda : ℝ) {j : Fin n}
    {l : List (Fin n)} (hl : l.Nodup) (hj : j ∉ l) :
    bic C N lambda j l = .ok (-(N * (Real.log (minor C (insert j l.toFinset)) - Real.log (minor C l.toFinset)) +
      Real.log N * l.length * lambda)) := by
  unfold bic
  by_cases h0 : l.length = 0
  · rw [if_pos h0, List.length_eq_zero_iff.1 h0]
    have e := minor_insert (posDef_symm hC) (l := []) List.nodup_nil (List.not_mem_nil (a := j)) (by simp [Matrix.det_isEmpty])
    have z : (rowAt C j [] * (blockAt C [])⁻¹ * (rowAt C j []).transpose) () () = 0 := by
      rw [Matrix.mul_apply]
      exact Finset.sum_eq_zero fun x _ => Fin.elim0 x
    rw [z, h1] at e
    rw [e, h1]
    simp only [List.toFinset_nil, minor_empty]
    simp [pure, Except.pure]
  · have hp := minor_pos hC l.toFinset
    have hp2 := minor_pos hC (insert j l.toFinset)
    rw [← blockAt_det C hl] at hp
    rw [if_neg h0]
    simp only
    rw [if_neg hp.ne']
    have e := minor_insert (posDef_symm hC) hl hj hp.ne'
    rw [blockAt_det C hl] at hp
    rw [e]
    rw [e] at hp2
    rw [Real.log_mul hp.ne' (pos_of_mul_pos_right hp2 hp.le).ne', add_sub_cancel_left]
    rfl

end BIC

section BDeu
variable {K : Type} [Field K] {N n : Nat}

/-- A sum over the values of a key function, of a function of the set of rows with that value. -/
def sumOver {β M : Type} [DecidableEq β] [AddCommMonoid M] (rows : Finset (Fin N)) (key : Fin N → β) (f : Finset (Fin N) → M) : M :=
  ∑ k ∈ rows.image key, f (rows.filter fun t => key t = k)

/-- The sum depends on the key function through the classes of rows only. -/
theorem sumOver_congr {β γ M : Type} [DecidableEq β] [DecidableEq γ] [AddCommMonoid M] {rows : Finset (Fin N)} {key : Fin N → β} {key' : Fin N → γ}
    (h : ∀ t u, key t = key u ↔ key' t = key' u) (f : Finset (Fin N) → M) : sumOver rows key f = sumOver rows key' f := by
  have main : ∀ {β : Type} [DecidableEq β] (key : Fin N → β), sumOver rows key f =
      ∑ c ∈ rows.image (fun t => rows.filter fun u => key u = key t), f c := by
    intro β _ key
    unfold sumOver
    have : (rows.image fun t => rows.filter fun u => key u = key t) = (rows.image key).image fun k => rows.filter fun u => key u = k := by
      rw [Finset.image_image]
      rfl
    rw [this, Finset.sum_image (s := rows.image key)]
    intro a ha b hb hab
    obtain ⟨t, ht, rfl⟩ := Finset.mem_image.1 ha
    obtain ⟨u, hu, rfl⟩ := Finset.mem_image.1 hb
    have : t ∈ rows.filter fun x => key x = key t := Finset.mem_filter.2 ⟨ht, rfl⟩
    simp only at hab
    rw [hab] at this
    exact (Finset.mem_filter.1 this).2
  rw [main key, main key']
  simp only [h]

/-- Grouping by two keys at once, or by one key inside the groups of the other. -/
theorem sumOver_nest {β γ M : Type} [DecidableEq β] [DecidableEq γ] [AddCommMonoid M] {rows : Finset (Fin N)} (key : Fin N → β) (key' : Fin N → γ)
    (f : Finset (Fin N) → M) :
    (∑ k ∈ rows.image key, sumOver (rows.filter fun t => key t = k) key' f) = sumOver rows (fun t => (key' t, key t)) f := by
  unfold sumOver
  rw [← Finset.sum_fiberwise_of_maps_to (s := rows.image fun t => (key' t, key t)) (t := rows.image key) (g := Prod.snd)]
  · refine Finset.sum_congr rfl fun k hk => ?_
    have : (rows.image fun t => (key' t, key t)).filter (fun p => p.2 = k) = ((rows.filter fun t => key t = k).image key').image fun x => (x, k) := by
      ext ⟨x, y⟩
      simp only [Finset.mem_filter, Finset.mem_image, Prod.mk.injEq]
      constructor
      · rintro ⟨⟨t, ht, rfl, rfl⟩, rfl⟩
        exact ⟨_, ⟨t, ⟨ht, rfl⟩, rfl⟩, rfl, rfl⟩
      · rintro ⟨_, ⟨t, ⟨ht, rfl⟩, rfl⟩, rfl, rfl⟩
        exact ⟨⟨t, ht, rfl, rfl⟩, rfl⟩
    rw [this, Finset.sum_image fun a _ b _ h => (Prod.mk.inj h).1]
    refine Finset.sum_congr rfl fun x _ => ?_
    congr 1
    ext t
    simp only [Finset.mem_filter, Prod.mk.injEq]
    tauto
  · intro p hp
    obtain ⟨t, ht, rfl⟩ := Finset.mem_image.1 hp
    exact Finset.mem_image_of_mem key ht

/-- The groups of the model are the classes of the key. -/
theorem groups_sum {M : Type} [AddCommMonoid M] (data : Fin N → Fin n → Int) (pa : List (Fin n)) (rows : List (Fin N))
    (f : Finset (Fin N) → M) :
    ((groups data pa rows).map fun key => f (rowsOf data pa rows key).toFinset).sum = sumOver rows.toFinset (fun t => pa.map (data t)) f := by
  unfold groups sumOver
  rw [← List.sum_toFinset _ (List.nodup_dedup _)]
  have : (rows.map fun t => pa.map (data t)).dedup.toFinset = rows.toFinset.image fun t => pa.map (data t) := by
    ext k
    simp
  rw [this]
  refine Finset.sum_congr rfl fun k _ => ?_
  congr 1
  ext t
  simp [rowsOf]

/-- The part of the score over a set of columns: over the values that occur. -/
noncomputable def cellSum (lgamma : K → K) (alpha : K) (data : Fin N → Fin n → Int) (l : List (Fin n)) : K :=
  sumOver Finset.univ (fun t => l.map (data t)) fun c =>
    lgamma ((c.card : K) + alpha / ((cells data l : Nat) : K)) - lgamma (alpha / ((cells data l : Nat) : K))

theorem cellSum_perm (lgamma : K → K) (alpha : K) (data : Fin N → Fin n → Int) {l l' : List (Fin n)} (h : l.Perm l') :
    cellSum lgamma alpha data l = cellSum lgamma alpha data l' := by
  unfold cellSum
  have : cells data l = cells data l' := (h.map _).prod_eq
  rw [this]
  refine sumOver_congr (fun t u => ?_) _
  have : ∀ l : List (Fin n), l.map (data t) = l.map (data u) ↔ ∀ x ∈ l, data t x = data u x := fun l => List.map_inj_left
  rw [this, this]
  simp only [h.mem_iff]

theorem bdeuValue_diff (log lgamma : K → K) (alpha s : K) (data : Fin N → Fin n → Int) (i : Fin n) (pa : List (Fin n)) :
    bdeuValue log lgamma alpha s data i pa =
      (pa.length : K) * log (s / ((N : K) - 1)) + (((N : K) - 1) - (pa.length : K)) * log (1 - s / ((N : K) - 1)) +
        (cellSum lgamma alpha data (i :: pa) - cellSum lgamma alpha data pa) := by
  unfold bdeuValue
  simp only
  congr 1
  have hr := List.nodup_finRange N
  have hro : ∀ key, (rowsOf data pa (List.finRange N) key).Nodup := fun key => hr.filter _
  have inner : ∀ key, ((groups data [i] (rowsOf data pa (List.finRange N) key)).map fun k =>
      lgamma ((((rowsOf data [i] (rowsOf data pa (List.finRange N) key) k).length : Nat) : K) + alpha / ((levels data i : Nat) * (cells data pa : Nat) : K)) -
        lgamma (alpha / ((levels data i : Nat) * (cells data pa : Nat) : K))).sum =
      sumOver (rowsOf data pa (List.finRange N) key).toFinset (fun t => [i].map (data t)) fun c =>
        lgamma ((c.card : K) + alpha / ((levels data i : Nat) * (cells data pa : Nat) : K)) - lgamma (alpha / ((levels data i : Nat) * (cells data pa : Nat) : K)) := by
    intro key
    rw [← groups_sum data [i] (rowsOf data pa (List.finRange N) key)]
    congr 1
    refine List.map_congr_left fun k _ => ?_
    rw [List.toFinset_card_of_nodup (show (rowsOf data [i] _ k).Nodup from (hro key).filter _)]
  simp only [inner]
  have outer : ∀ key, lgamma (alpha / ((cells data pa : Nat) : K)) -
      lgamma (((rowsOf data pa (List.finRange N) key).length : K) + alpha / ((cells data pa : Nat) : K)) =
      lgamma (alpha / ((cells data pa : Nat) : K)) -
      lgamma (((rowsOf data pa (List.finRange N) key).toFinset.card : K) + alpha / ((cells data pa : Nat) : K)) := by
    intro key
    rw [List.toFinset_card_of_nodup (hro key)]
  simp only [outer]
  rw [groups_sum data pa (List.finRange N) fun c => lgamma (alpha / ((cells data pa : Nat) : K)) -
      lgamma ((c.card : K) + alpha / ((cells data pa : Nat) : K)) +
      sumOver c (fun t => [i].map (data t)) fun c =>
        lgamma ((c.card : K) + alpha / ((levels data i : Nat) * (cells data pa : Nat) : K)) - lgamma (alpha / ((levels data i : Nat) * (cells data pa : Nat) : K))]
  have hu : (List.finRange N).toFinset = Finset.univ := by ext t; simp
  rw [hu]
  have e1 : cellSum lgamma alpha data (i :: pa) = sumOver Finset.univ (fun t => ([i].map (data t), pa.map (data t))) fun c =>
        lgamma ((c.card : K) + alpha / ((levels data i : Nat) * (cells data pa : Nat) : K)) -
          lgamma (alpha / ((levels data i : Nat) * (cells data pa : Nat) : K)) := by
    unfold cellSum
    have : ((cells data (i :: pa) : Nat) : K) = (levels data i : Nat) * (cells data pa : Nat) := by
      unfold cells
      simp
    rw [this]
    refine sumOver_congr (fun t u => ?_) _
    simp
  rw [e1, ← sumOver_nest]
  unfold cellSum
  rw [sumOver, sumOver, Finset.sum_add_distrib, add_comm, sub_eq_add_neg, ← Finset.sum_neg_distrib]
  congr 1
  exact Finset.sum_congr rfl fun k _ => (neg_sub _ _).symm

end BDeu
end Cdmir.LocalScore
