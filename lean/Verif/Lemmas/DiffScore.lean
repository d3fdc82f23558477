import Verif.Lemmas.FamScore
import Mathlib.Data.Finset.Powerset
import Mathlib.Data.Fintype.Powerset
import Mathlib.Algebra.BigOperators.Ring.Finset
import Mathlib.Algebra.BigOperators.Fin

/-! A local score that is a difference of a set function is equal on equivalent DAGs. -/

namespace Cdmir
open Spec BigOperators
variable {α : Type} [DecidableEq α] {K : Type} [Field K] [LinearOrder K] [IsStrictOrderedRing K]

/-- The Moebius transform of a set function. -/
noncomputable def mob (F : Finset α → K) (S : Finset α) : K := F S - ∑ T : {T // T ∈ S.ssubsets}, mob F T.1
termination_by S.card
decreasing_by exact Finset.card_lt_card (Finset.mem_ssubsets.1 T.2)

omit [LinearOrder K] [IsStrictOrderedRing K] in
theorem mob_sum (F : Finset α → K) (S : Finset α) : ∑ T ∈ S.powerset, mob F T = F S := by
  have : S.powerset = insert S S.ssubsets := by
    ext T
    simp only [Finset.mem_powerset, Finset.mem_insert, Finset.mem_ssubsets]
    constructor
    · intro h
      rcases eq_or_ssubset_of_subset h with k | k
      · exact .inl k
      · exact .inr k
    · rintro (rfl | h)
      · exact subset_rfl
      · exact h.subset
  rw [this, Finset.sum_insert (by simp), mob, Finset.univ_eq_attach, Finset.sum_attach _ (mob F)]
  ring

/-- The families of `F`. -/
noncomputable def mobTable (F : Finset α → K) (N : List α) : List (List α × K) :=
  N.toFinset.powerset.toList.map fun T => (T.toList, mob F T)

omit [LinearOrder K] [IsStrictOrderedRing K] in
theorem famScore_mob (F : Finset α → K) {N : List α} {j : α} (hj : j ∈ N) {l : List α} (hl : ∀ x ∈ l, x ∈ N) (hjl : j ∉ l) :
    famScore (mobTable F N) j l = F (insert j l.toFinset) - F l.toFinset := by
  unfold famScore mobTable
  rw [List.map_map, Finset.sum_map_toList]
  simp only [Function.comp_def, Finset.mem_toList]
  rw [← Finset.sum_filter]
  have e : (N.toFinset.powerset.filter fun T => j ∈ T ∧ ∀ x ∈ T, x = j ∨ x ∈ l) =
      (insert j l.toFinset).powerset \ l.toFinset.powerset := by
    ext T
    simp only [Finset.mem_filter, Finset.mem_powerset, Finset.mem_sdiff, Finset.subset_iff, Finset.mem_insert, List.mem_toFinset]
    constructor
    · rintro ⟨-, h2, h3⟩
      exact ⟨fun x hx => h3 x hx, fun h => hjl (h h2)⟩
    · rintro ⟨h1, h2⟩
      refine ⟨fun x hx => ?_, ?_, fun x hx => h1 x hx⟩
      · rcases h1 x hx with rfl | k
        · exact hj
        · exact hl x k
      · by_contra hT
        exact h2 fun x hx => (h1 x hx).resolve_left fun k => hT (k ▸ hx)
  rw [e, Finset.sum_sdiff_eq_sub (Finset.powerset_mono.2 (Finset.subset_insert _ _)), mob_sum, mob_sum]

/-- A local score that is the difference of a set function between the family and the parents is equal on equivalent DAGs. -/
theorem diffScore_equiv {N : List α} (hn : N.Nodup) {score : α → List α → K} (F : Finset α → K)
    (hF : ∀ j ∈ N, ∀ l : List α, l.Nodup → (∀ x ∈ l, x ∈ N) → j ∉ l → score j l = F (insert j l.toFinset) - F l.toFinset) :
    ScoreEquiv score N := by
  intro D D' hfin ac hc s s' hs hs'
  have hfin' : ∀ a b, D' a b → a ∈ N ∧ b ∈ N := by
    intro a b k
    rcases (hc.adj a b).1 (Or.inl k) with q | q
    · exact hfin _ _ q
    · exact (hfin _ _ q).symm
  have key : ∀ {E : α → α → Prop}, (∀ a b, E a b → a ∈ N ∧ b ∈ N) → Acyclic E → ∀ t, DagScore score N E t →
      DagScore (famScore (mobTable F N)) N E t := by
    intro E hE aE t hE' pa hpa
    rw [hE' pa hpa]
    congr 1
    refine List.map_congr_left fun v hv => ?_
    have h1 : ∀ x ∈ pa v, x ∈ N := fun x hx => (hE x v (((hpa v).2 x).1 hx)).1
    have h2 : v ∉ pa v := fun h => aE v (.single (((hpa v).2 v).1 h))
    rw [famScore_mob F hv h1 h2, hF v hv _ (hpa v).1 h1 h2]
  refine famScore_equiv hn (tbl := mobTable F N) ?_ D D' hfin ac hc s s' (key hfin ac s hs) (key hfin' hc.acyclic s' hs')
  intro e he x hx
  unfold mobTable at he
  obtain ⟨T, hT, rfl⟩ := List.mem_map.1 he
  rw [Finset.mem_toList, Finset.mem_powerset] at hT
  exact List.mem_toFinset.1 (hT (Finset.mem_toList.1 hx))

end Cdmir
