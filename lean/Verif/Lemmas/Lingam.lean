import Verif.Model.Lingam
import Mathlib.Data.Fintype.EquivFin
import Mathlib.Algebra.Order.BigOperators.Group.Finset
import Mathlib.Algebra.Group.End

/-! Facts about the permutation search of ICA-LiNGAM. -/

set_option linter.unusedSectionVars false

namespace Cdmir.Lingam
open BigOperators

/-- The rows of the permutation matrix of `σ`. -/
def permRows {n : Nat} (σ : Equiv.Perm (Fin n)) : List (List Int) :=
  (List.finRange n).map fun i => (List.finRange n).map fun j => if σ i = j then 1 else 0

/-! ### all permutation matrices -/

/-- The row with a one at `j`. -/
def unitRow {n : Nat} (j : Fin n) : List Int := (List.finRange n).map fun k => if j = k then 1 else 0

theorem unitRow_inj {n : Nat} : Function.Injective (unitRow (n := n)) := by
  intro a b h
  have := congrArg (fun l => l[a.val]?) h
  simp [unitRow] at this
  exact this.symm

theorem perm_unit {k : Nat} {l : List Int} : l.Perm (1 :: List.replicate k 0) ↔ ∃ j : Fin (k + 1), l = unitRow j := by
  have e : ∀ j : Fin (k + 1), (unitRow j).Perm (1 :: List.replicate k 0) := by
    intro j
    rw [List.perm_iff_count]
    intro a
    have hc : ∀ m : List (Fin (k + 1)), m.Nodup → ∀ b : Int, (m.map fun i => if j = i then (1 : Int) else 0).count b =
        (if b = 1 then (if j ∈ m then 1 else 0) else 0) + (if b = 0 then m.length - (if j ∈ m then 1 else 0) else 0) := by
      intro m
      induction m with
      | nil => intro _ b; simp
      | cons i m ih =>
        intro hm b
        rw [List.nodup_cons] at hm
        simp only [List.map_cons, List.count_cons, ih hm.2 b, List.mem_cons, List.length_cons]
        by_cases h : j = i
        · subst h
          simp only [hm.1, if_true, if_false, true_or]
          by_cases h1 : b = 1
          · subst h1; simp
          · by_cases h0 : b = 0
            · subst h0; simp
            · simp [h1, h0, Ne.symm h1]
        · have hl : j ∈ m → 1 ≤ m.length := fun h => List.length_pos_of_mem h
          simp only [h, if_false, false_or]
          by_cases h1 : b = 1
          · subst h1; simp
          · by_cases h0 : b = 0
            · subst h0
              by_cases hj : j ∈ m
              · have := hl hj; simp [hj]; omega
              · simp [hj]
            · simp [h1, h0, Ne.symm h0]
    unfold unitRow
    rw [hc _ (List.nodup_finRange _) a]
    simp only [List.mem_finRange, if_true, List.length_finRange, List.count_cons, List.count_replicate]
    by_cases h1 : a = 1
    · subst h1; simp
    · by_cases h0 : a = 0
      · subst h0; simp
      · simp [h1, h0, Ne.symm h1, Ne.symm h0]
  constructor
  · intro h
    have hl : l.length = k + 1 := by simpa using h.length_eq
    have h1 : (1 : Int) ∈ l := h.mem_iff.2 (by simp)
    obtain ⟨j, hj, e1⟩ := List.mem_iff_getElem.1 h1
    refine ⟨⟨j, by omega⟩, ?_⟩
    have h01 : ∀ x ∈ l, x = 1 ∨ x = 0 := fun x hx => by
      have := h.mem_iff.1 hx
      simp only [List.mem_cons, List.mem_replicate] at this
      tauto
    have hc : l.count 1 = 1 := by
      rw [h.count_eq]
      simp [List.count_replicate]
    apply List.ext_getElem (by simp [unitRow, hl])
    intro i hi hi'
    simp only [unitRow, List.getElem_map, List.getElem_finRange, Fin.mk.injEq, Fin.cast_mk]
    by_cases hij : j = i
    · subst hij; simpa using e1
    · rw [if_neg hij]
      rcases h01 _ (List.getElem_mem hi) with h2 | h2
      · exfalso
        have : l.Duplicate 1 := by
          rw [List.duplicate_iff_exists_distinct_get]
          rcases lt_or_gt_of_ne hij with hlt | hlt
          · exact ⟨⟨j, hj⟩, ⟨i, hi⟩, hlt, by simpa using e1.symm, by simpa using h2.symm⟩
          · exact ⟨⟨i, hi⟩, ⟨j, hj⟩, hlt, by simpa using h2.symm, by simpa using e1.symm⟩
        have := List.duplicate_iff_two_le_count.1 this
        omega
      · exact h2
  · rintro ⟨j, rfl⟩
    exact e j

theorem perm_rows {n : Nat} {β : Type} {f : Fin n → β} (hf : Function.Injective f) {l : List β} :
    l.Perm ((List.finRange n).map f) ↔ ∃ σ : Equiv.Perm (Fin n), l = (List.finRange n).map fun i => f (σ i) := by
  constructor
  · intro h
    have hl : l.length = n := by simpa using h.length_eq
    have hn : l.Nodup := h.nodup_iff.2 ((List.nodup_finRange n).map hf)
    have hm : ∀ i : Fin n, ∃ j, f j = l.get (i.cast hl.symm) := fun i => by
      have := h.mem_iff.1 (List.get_mem l (i.cast hl.symm))
      simpa using this
    choose s hs using hm
    have si : Function.Injective s := by
      intro a b e
      have : l.get (a.cast hl.symm) = l.get (b.cast hl.symm) := by rw [← hs, ← hs, e]
      have := hn.get_inj_iff.1 this
      exact Fin.ext (by simpa using congrArg Fin.val this)
    refine ⟨Equiv.ofBijective s (Finite.injective_iff_bijective.1 si), ?_⟩
    apply List.ext_getElem (by simp [hl])
    intro i h1 h2
    simp only [List.getElem_map, List.getElem_finRange, Equiv.ofBijective_apply, hs]
    simp
  · rintro ⟨σ, rfl⟩
    have : ((List.finRange n).map fun i => f (σ i)) = ((List.finRange n).map σ).map f := by simp
    rw [this]
    refine List.Perm.map f ((List.perm_ext_iff_of_nodup ((List.nodup_finRange n).map σ.injective) (List.nodup_finRange n)).2 fun a => ?_)
    simp only [List.mem_map, List.mem_finRange, true_and, iff_true]
    exact ⟨σ.symm a, by simp⟩

section
variable {so1 : List (List Int) → List (List Int)} {so2 : List (List (List Int)) → List (List (List Int))}

theorem mem_permSet {β : Type} [DecidableEq β] {so : List (List β) → List (List β)} (hso : ∀ l, (so l).Perm l) {l p : List β} :
    p ∈ permSet so l ↔ p.Perm l := by
  unfold permSet
  rw [(hso _).mem_iff, List.mem_dedup, List.mem_permutations']

theorem nodup_permSet {β : Type} [DecidableEq β] {so : List (List β) → List (List β)} (hso : ∀ l, (so l).Perm l) (l : List β) :
    (permSet so l).Nodup := (hso _).nodup_iff.2 (List.nodup_dedup _)

theorem findAllP_spec (h1 : ∀ l, (so1 l).Perm l) (h2 : ∀ l, (so2 l).Perm l) {n : Nat} (hn : n ≠ 0) :
    ∃ Ps, findAllP so1 so2 n = .ok Ps ∧ Ps.Nodup ∧ ∀ P, P ∈ Ps ↔ ∃ σ : Equiv.Perm (Fin n), P = permRows σ := by
  obtain ⟨k, rfl⟩ := Nat.exists_eq_succ_of_ne_zero hn
  refine ⟨_, rfl, nodup_permSet h2 _, fun P => ?_⟩
  rw [mem_permSet h2]
  have e : (permSet so1 (1 :: List.replicate k 0)).Perm ((List.finRange (k + 1)).map unitRow) :=
    (List.perm_ext_iff_of_nodup (nodup_permSet h1 _) ((List.nodup_finRange _).map unitRow_inj)).2 fun a => by
      rw [mem_permSet h1, perm_unit]
      simp [eq_comm]
  exact ⟨fun h => (perm_rows unitRow_inj).1 (h.trans e), fun h => ((perm_rows unitRow_inj).2 h).trans e.symm⟩

end

/-! ### argmin -/

section
variable {K : Type} [Field K] [LinearOrder K] {n : Nat}

theorem dot_perm (σ : Equiv.Perm (Fin n)) (W : Mat K n) : dot (permRows σ) W = fun i j => W (σ i) j := by
  funext i j
  unfold dot permRows
  rw [← Fin.sum_univ_def]
  have e : ∀ x : Fin n, (((if σ i = x then some (1 : Int) else some 0).getD 0 : Int) : K) = if σ i = x then 1 else 0 := by
    intro x
    by_cases h : σ i = x <;> simp [h]
  simp [apply_ite, e]

theorem argmin_fin {β : Type} {l : List β} {f : β → K} (hl : l ≠ []) :
    ∃ k, argmin (l.map fun x => Flt.fin (f x)) = .ok k ∧ ∃ x, l[k]? = some x ∧ ∀ y ∈ l, f x ≤ f y := by
  have hnan : (l.map fun x => Flt.fin (f x)).idxOf? Flt.nan = none := List.idxOf?_eq_none_iff.2 (by simp)
  unfold argmin
  rw [hnan]
  obtain ⟨a, l, rfl⟩ := List.exists_cons_of_ne_nil hl
  simp only [List.map_cons]
  refine ⟨_, rfl, ?_⟩
  have main : ∀ (ys : List β) (pre : List β) (b : β) (k : Nat), (pre ++ ys)[k]? = some b → (∀ y ∈ pre, f b ≤ f y) →
      ∃ x, (pre ++ ys)[(((ys.map fun x => Flt.fin (f x)).zipIdx pre.length).foldl
        (fun (b : Flt K × Nat) y => if y.1.lt b.1 then y else b) (Flt.fin (f b), k)).2]? = some x ∧ ∀ y ∈ pre ++ ys, f x ≤ f y := by
    intro ys
    induction ys with
    | nil => intro pre b k h hb; exact ⟨b, by simpa using h, by simpa using hb⟩
    | cons y ys ih =>
      intro pre b k h hb
      simp only [List.map_cons, List.zipIdx_cons, List.foldl_cons]
      have e : pre ++ y :: ys = (pre ++ [y]) ++ ys := by simp
      by_cases hlt : f y < f b
      · have := ih (pre ++ [y]) y pre.length (by simp) (fun z hz => by
          rcases List.mem_append.1 hz with hz | hz
          · exact le_of_lt (lt_of_lt_of_le hlt (hb z hz))
          · rw [List.mem_singleton.1 hz])
        rw [← e] at this
        simpa [Flt.lt, hlt] using this
      · have := ih (pre ++ [y]) b k (by rw [← e]; exact h) (fun z hz => by
          rcases List.mem_append.1 hz with hz | hz
          · exact hb z hz
          · rw [List.mem_singleton.1 hz]; exact not_lt.1 hlt)
        rw [← e] at this
        simpa [Flt.lt, hlt] using this
  exact main l [a] a 0 (by simp) (by simp)

theorem findBWave_spec {Ps : List (List (List Int))} (hP : ∀ P, P ∈ Ps ↔ ∃ σ : Equiv.Perm (Fin n), P = permRows σ) (B : Mat K n) :
    ∃ σ : Equiv.Perm (Fin n), findBWave Ps B = .ok (fun i j => B (σ i) j) ∧ ∀ τ : Equiv.Perm (Fin n), bScore (fun i j => B (σ i) j) ≤ bScore fun i j => B (τ i) j := by
  have hne : Ps ≠ [] := List.ne_nil_of_mem ((hP _).2 ⟨1, rfl⟩)
  obtain ⟨k, e, P, hk, h⟩ := argmin_fin (l := Ps) (f := fun P => bScore (dot P B)) hne
  obtain ⟨σ, rfl⟩ := (hP P).1 (List.mem_of_getElem? hk)
  refine ⟨σ, ?_, fun τ => ?_⟩
  · unfold findBWave
    rw [e]
    simp only [bind, Except.bind, pure, Except.pure, List.getD, hk, Option.getD_some, dot_perm]
  · have := h (permRows τ) ((hP _).2 ⟨τ, rfl⟩)
    rwa [dot_perm, dot_perm] at this

theorem fsum_fin (l : List K) : fsum (l.map Flt.fin) = .fin l.sum := by
  have : ∀ (l : List K) (a : K), (l.map Flt.fin).foldl Flt.add (.fin a) = .fin (a + l.sum) := by
    intro l
    induction l with
    | nil => intro a; simp
    | cons x l ih => intro a; simp [Flt.add, ih, add_assoc]
  simpa [fsum] using this l 0

theorem fsum_nan {l : List (Flt K)} (h : Flt.nan ∈ l) : fsum l = .nan := by
  have h0 : ∀ l : List (Flt K), l.foldl Flt.add Flt.nan = .nan := by
    intro l
    induction l with
    | nil => rfl
    | cons x l ih => simpa [Flt.add] using ih
  have : ∀ (l : List (Flt K)) (a : Flt K), Flt.nan ∈ l → l.foldl Flt.add a = .nan := by
    intro l
    induction l with
    | nil => intro a h; simp at h
    | cons x l ih =>
      intro a h
      rcases List.mem_cons.1 h with h | h
      · subst h
        simp only [List.foldl_cons]
        cases a <;> exact h0 l
      · exact ih _ h
  exact this l _ h

/-- Without zeros the score is the sum of the inverse diagonal. -/
theorem wScore_fin {A : Mat K n} (h : ∀ i j, A i j ≠ 0) : wScore A = .fin (∑ i, |1 / A i i|) := by
  unfold wScore
  have e : ∀ j, fsum ((List.finRange n).map fun i => eyeTimes (decide (i = j)) (absInv (A i j))) = Flt.fin |1 / A j j| := by
    intro j
    have : ((List.finRange n).map fun i => eyeTimes (decide (i = j)) (absInv (A i j))) =
        ((List.finRange n).map fun i => if i = j then |1 / A j j| else 0).map Flt.fin := by
      rw [List.map_map]
      refine List.map_congr_left fun i _ => ?_
      by_cases hij : i = j
      · subst hij; simp [eyeTimes, absInv, h]
      · simp [eyeTimes, absInv, h, hij]
    rw [this, fsum_fin, ← Fin.sum_univ_def]
    simp
  simp only [e]
  rw [show ((List.finRange n).map fun j => Flt.fin |1 / A j j|) = ((List.finRange n).map fun j => |1 / A j j|).map Flt.fin by simp,
    fsum_fin, ← Fin.sum_univ_def]

/-- A zero off the diagonal makes the score NaN. -/
theorem wScore_nan {A : Mat K n} {i j : Fin n} (hij : i ≠ j) (h : A i j = 0) : wScore A = .nan := by
  unfold wScore
  refine fsum_nan (List.mem_map.2 ⟨j, List.mem_finRange j, fsum_nan (List.mem_map.2 ⟨i, List.mem_finRange i, ?_⟩)⟩)
  simp [absInv, h, eyeTimes, hij]

theorem findWWave_spec {Ps : List (List (List Int))} (hP : ∀ P, P ∈ Ps ↔ ∃ σ : Equiv.Perm (Fin n), P = permRows σ) {W : Mat K n}
    (hW : ∀ i j, W i j ≠ 0) :
    ∃ σ : Equiv.Perm (Fin n), findWWave Ps W = .ok (fun i j => W (σ i) j) ∧
      ∀ τ : Equiv.Perm (Fin n), ∑ i, |1 / W (σ i) i| ≤ ∑ i, |1 / W (τ i) i| := by
  have hne : Ps ≠ [] := List.ne_nil_of_mem ((hP _).2 ⟨1, rfl⟩)
  obtain ⟨k, e, P, hk, h⟩ := argmin_fin (l := Ps) (f := fun P => ∑ i, |1 / dot P W i i|) hne
  obtain ⟨σ, rfl⟩ := (hP P).1 (List.mem_of_getElem? hk)
  refine ⟨σ, ?_, fun τ => ?_⟩
  · unfold findWWave
    have : (Ps.map fun P => wScore (dot P W)) = Ps.map fun P => Flt.fin (∑ i, |1 / dot P W i i|) := by
      refine List.map_congr_left fun P hp => ?_
      obtain ⟨τ, rfl⟩ := (hP P).1 hp
      rw [dot_perm, wScore_fin fun i j => hW _ _]
    rw [this, e]
    simp only [bind, Except.bind, pure, Except.pure, List.getD, hk, Option.getD_some, dot_perm]
  · have := h (permRows τ) ((hP _).2 ⟨τ, rfl⟩)
    rwa [dot_perm, dot_perm] at this

/-- `bScore` is the sum of the squares on and above the diagonal. -/
theorem bScore_eq (A : Mat K n) : bScore A = ∑ i, ∑ k, if i ≤ k then A i k * A i k else 0 := by
  unfold bScore
  rw [← Fin.sum_univ_def]
  refine Finset.sum_congr rfl fun i _ => ?_
  rw [← Fin.sum_univ_def]
  exact Finset.sum_congr rfl fun k _ => by simp [tri]

theorem bScore_ge [IsStrictOrderedRing K] (A : Mat K n) {i k : Fin n} (h : i ≤ k) : A i k * A i k ≤ bScore A := by
  rw [bScore_eq]
  have h1 : (if i ≤ k then A i k * A i k else 0) ≤ ∑ k, if i ≤ k then A i k * A i k else 0 :=
    Finset.single_le_sum (f := fun k => if i ≤ k then A i k * A i k else 0) (fun l _ => by split <;> [exact mul_self_nonneg _; exact le_refl _]) (Finset.mem_univ k)
  rw [if_pos h] at h1
  exact h1.trans (Finset.single_le_sum (f := fun i => ∑ k, if i ≤ k then A i k * A i k else 0)
    (fun l _ => Finset.sum_nonneg fun k _ => by split <;> [exact mul_self_nonneg _; exact le_refl _]) (Finset.mem_univ i))

/-- A permutation other than the identity puts a later row at some place. -/
theorem exists_later {σ : Equiv.Perm (Fin n)} (h : σ ≠ 1) : ∃ i, i < σ i := by
  by_contra hc
  have hle : ∀ i, σ i ≤ i := fun i => not_lt.1 fun hi => hc ⟨i, hi⟩
  refine h (Equiv.ext fun i => ?_)
  have : ∀ m, ∀ i : Fin n, i.val = m → σ i = i := by
    intro m
    induction m using Nat.strong_induction_on with
    | _ m ih =>
      intro i hi
      rcases lt_or_eq_of_le (hle i) with hlt | he
      · have := ih (σ i).val (by rw [← hi]; exact hlt) (σ i) rfl
        exact σ.injective this
      · exact he
  exact this _ i rfl

end
end Cdmir.Lingam
