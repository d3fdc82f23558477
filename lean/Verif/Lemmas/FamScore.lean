import Verif.Spec.GES
import Verif.Lemmas.Essential
import Mathlib.Algebra.BigOperators.Group.List.Basic
import Mathlib.Tactic.Ring

/-! Scores by families are equal on equivalent DAGs. -/

set_option linter.unusedSectionVars false

namespace Cdmir
open Spec
variable {α : Type} [DecidableEq α] {K : Type} [Field K] [LinearOrder K] [IsStrictOrderedRing K]

theorem famScore_set (tbl : List (List α × K)) : SetScore (famScore tbl) := by
  intro j l l' _ _ he
  unfold famScore
  simp only [he]

omit [DecidableEq α] in
/-- One member of `S` has all others among its parents: the same in equivalent DAGs. -/
theorem family_class {N : List α} {G D : α → α → Prop} (hD : InClass G D) {S : List α}
    (h : ∃ v ∈ N, v ∈ S ∧ ∀ x ∈ S, x = v ∨ G x v) (hS : ∀ x ∈ S, x ∈ N) : ∃ v ∈ N, v ∈ S ∧ ∀ x ∈ S, x = v ∨ D x v := by
  obtain ⟨i, hi, hiS, hp⟩ := h
  -- a member of `S` without children in `S`
  have hmax : ∃ k ∈ S, ∀ x ∈ S, ¬ D k x := by
    by_contra hno
    push Not at hno
    have : ∀ (n : Nat), ∃ l : List α, l.length = n ∧ (∀ x ∈ l, x ∈ S) ∧ l.Nodup ∧ ∃ a ∈ S, (∀ x ∈ l, Relation.TransGen D x a) := by
      intro n
      induction n with
      | zero => exact ⟨[], rfl, by simp, by simp, i, hiS, by simp⟩
      | succ n ih =>
        obtain ⟨l, e, h1, h2, a, ha, h3⟩ := ih
        obtain ⟨b, hb, hab⟩ := hno a ha
        refine ⟨a :: l, by simp [e], ?_, ?_, b, hb, ?_⟩
        · intro x hx
          rcases List.mem_cons.1 hx with rfl | hx
          · exact ha
          · exact h1 x hx
        · exact List.nodup_cons.2 ⟨fun k => hD.acyclic a (h3 a k), h2⟩
        · intro x hx
          rcases List.mem_cons.1 hx with rfl | hx
          · exact .single hab
          · exact (h3 x hx).tail hab
    obtain ⟨l, e, h1, h2, _⟩ := this (S.length + 1)
    have := (List.subperm_of_subset h2 h1).length_le
    omega
  obtain ⟨k, hk, hmax⟩ := hmax
  refine ⟨k, hS k hk, hk, fun x hx => ?_⟩
  by_cases exk : x = k
  · exact Or.inl exk
  right
  have tot : ∀ {a b}, G a b → D a b ∨ D b a := fun q => (hD.adj _ _).2 (Or.inl q)
  have adj : Adj D x k := by
    rcases hp k hk with rfl | hki
    · exact (hD.adj _ _).2 (Or.inl ((hp x hx).resolve_left exk))
    · have hik : D i k := (tot hki).resolve_left (hmax i hiS)
      rcases hp x hx with rfl | hxi
      · exact Or.inl hik
      · by_contra hna
        have vs : VStruct G x i k := ⟨exk, hxi, hki, fun q => hna ((hD.adj _ _).2 q)⟩
        exact hmax i hiS ((hD.vstruct _ _ _).2 vs).2.2.1
  exact adj.resolve_right (hmax x hx)

omit [DecidableEq α] in
theorem sum_add (f h : α → K) : ∀ N : List α, (N.map (fun v => f v + h v)).sum = (N.map f).sum + (N.map h).sum
  | [] => by simp
  | a :: t => by
    simp only [List.map_cons, List.sum_cons]
    rw [sum_add f h t]; ring

omit [DecidableEq α] in
theorem sum_single (P : α → Prop) [DecidablePred P] (m : K) (hu : ∀ a b, P a → P b → a = b) : ∀ {N : List α}, N.Nodup →
    ((∃ v ∈ N, P v) → (N.map (fun v => if P v then m else 0)).sum = m) ∧
      ((¬ ∃ v ∈ N, P v) → (N.map (fun v => if P v then m else 0)).sum = 0)
  | [], _ => by simp
  | a :: t, hn => by
    rw [List.nodup_cons] at hn
    simp only [List.map_cons, List.sum_cons]
    have ih := sum_single P m hu hn.2
    by_cases ha : P a
    · have : ¬ ∃ v ∈ t, P v := fun ⟨v, hv, k⟩ => hn.1 (hu v a k ha ▸ hv)
      rw [ih.2 this]
      simp [ha]
    · simp only [ha, if_false, zero_add, List.mem_cons, exists_eq_or_imp, false_or]
      exact ih

theorem famScore_equiv {N : List α} (hn : N.Nodup) {tbl : List (List α × K)} (ht : ∀ e ∈ tbl, ∀ x ∈ e.1, x ∈ N) :
    ScoreEquiv (famScore tbl) N := by
  classical
  intro D D' hfin ac hc s s' hs hs'
  have hfin' : ∀ a b, D' a b → a ∈ N ∧ b ∈ N := by
    intro a b k
    rcases (hc.adj a b).1 (Or.inl k) with q | q
    · exact hfin _ _ q
    · exact (hfin _ _ q).symm
  have key : ∀ {E : α → α → Prop}, (∀ a b, E a b → a ∈ N ∧ b ∈ N) → Acyclic E → ∀ t, DagScore (famScore tbl) N E t →
      t = (tbl.map (fun e => if ∃ v ∈ N, v ∈ e.1 ∧ ∀ x ∈ e.1, x = v ∨ E x v then e.2 else 0)).sum := by
    intro E hE aE t hE'
    let pa : α → List α := fun v => N.filter (fun x => decide (E x v))
    have hpa : ∀ v x, x ∈ pa v ↔ E x v := by
      intro v x
      simp only [pa, List.mem_filter, decide_eq_true_eq, and_iff_right_iff_imp]
      exact fun k => (hE x v k).1
    rw [hE' pa (fun v => ⟨hn.filter _, hpa v⟩)]
    unfold famScore
    simp only [hpa]
    clear hE' ht hs hs'
    induction tbl with
    | nil => simp
    | cons e tl ih =>
      simp only [List.map_cons, List.sum_cons]
      rw [sum_add, ih]
      congr 1
      have hs := sum_single (fun v => v ∈ e.1 ∧ ∀ x ∈ e.1, x = v ∨ E x v) e.2 ?_ hn
      · split_ifs with k
        · exact hs.1 k
        · exact hs.2 k
      rintro a b ⟨ha, ka⟩ ⟨hb, kb⟩
      rcases ka b hb with q | q
      · exact q.symm
      · rcases kb a ha with z | z
        · exact z
        · exact absurd z (aE.asymm _ _ q)
  rw [key hfin ac s hs, key hfin' hc.acyclic s' hs']
  congr 1
  refine List.map_congr_left (fun e he => ?_)
  have hc' : InClass D' D := ⟨ac, fun u v => (hc.adj u v).symm, fun u w v => (hc.vstruct u w v).symm⟩
  have : (∃ v ∈ N, v ∈ e.1 ∧ ∀ x ∈ e.1, x = v ∨ D x v) ↔ ∃ v ∈ N, v ∈ e.1 ∧ ∀ x ∈ e.1, x = v ∨ D' x v :=
    ⟨fun k => family_class hc k (ht e he), fun k => family_class hc' k (ht e he)⟩
  simp only [this]

end Cdmir
