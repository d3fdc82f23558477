import Mathlib.Data.Real.Basic
import Mathlib.Algebra.BigOperators.Group.Finset.Basic
import Mathlib.Algebra.BigOperators.Intervals
import Mathlib.Algebra.BigOperators.GroupWithZero.Finset
import Mathlib.Logic.Function.Iterate
import Mathlib.Tactic.LinearCombination
import Mathlib.Tactic.Linarith
import Mathlib.Tactic.Ring
import Mathlib.Data.List.Nodup

/-! Linear hierarchical models: the variables of one level measure those of the next. -/

set_option linter.unusedSectionVars false

namespace Cdmir.Hier

/-- A hierarchical model. Every variable is its load times its parent, one level up, plus noise; level 0 is observed. -/
structure Hierarchy (N : Type) where
  nodes : List N
  level : N → Nat
  parent : N → N
  load : N → ℝ
  /-- The variances of the noise, which is uncorrelated. -/
  noise : N → ℝ
  /-- The covariances of variables of the same level. -/
  cov : N → N → ℝ

variable {N : Type} [DecidableEq N]

/-- The variables of one level. -/
def Hierarchy.at (H : Hierarchy N) (k : Nat) : List N := H.nodes.filter fun a => H.level a = k

/-- The variables that measure a variable. -/
def Hierarchy.children (H : Hierarchy N) (p : N) : List N := H.nodes.filter fun a => H.level a + 1 = H.level p ∧ H.parent a = p

/-- What is asked of a hierarchical model whose highest level is `D`. Every latent variable has at least three children, there are at least four
variables on all levels below the highest and at most three on the highest, whose covariances are arbitrary. -/
structure Hierarchy.Good (H : Hierarchy N) (D : Nat) : Prop where
  nodup : H.nodes.Nodup
  bound : ∀ a ∈ H.nodes, H.level a ≤ D
  up : ∀ a ∈ H.nodes, H.level a < D → H.parent a ∈ H.nodes ∧ H.level (H.parent a) = H.level a + 1
  three : ∀ p ∈ H.nodes, 0 < H.level p → 3 ≤ (H.children p).length
  load : ∀ a ∈ H.nodes, H.level a < D → H.load a ≠ 0
  noise : ∀ a ∈ H.nodes, H.level a < D → 0 < H.noise a
  law : ∀ a ∈ H.nodes, ∀ b ∈ H.nodes, H.level a = H.level b → H.level a < D →
    H.cov a b = H.load a * H.load b * H.cov (H.parent a) (H.parent b) + if a = b then H.noise a else 0
  top_symm : ∀ p ∈ H.at D, ∀ q ∈ H.at D, H.cov p q = H.cov q p
  top_pos : ∀ p ∈ H.at D, 0 < H.cov p p
  top_corr : ∀ p ∈ H.at D, ∀ q ∈ H.at D, p ≠ q → H.cov p q ^ 2 < H.cov p p * H.cov q q
  wide : ∀ k < D, 4 ≤ (H.at k).length
  narrow : (H.at D).length ≤ 3

variable {H : Hierarchy N} {D : Nat}

theorem mem_at {k : Nat} {a : N} : a ∈ H.at k ↔ a ∈ H.nodes ∧ H.level a = k := by
  simp [Hierarchy.at]

theorem mem_children {p a : N} : a ∈ H.children p ↔ a ∈ H.nodes ∧ H.level a + 1 = H.level p ∧ H.parent a = p := by
  simp [Hierarchy.children]

/-- The covariances of every level are those of variables none of which is a multiple of another. -/
theorem Hierarchy.Good.regular (h : H.Good D) {k j : Nat} (hkj : k + j = D) : (∀ p ∈ H.at k, ∀ q ∈ H.at k, H.cov p q = H.cov q p) ∧
    (∀ p ∈ H.at k, 0 < H.cov p p) ∧ ∀ p ∈ H.at k, ∀ q ∈ H.at k, p ≠ q → H.cov p q ^ 2 < H.cov p p * H.cov q q := by
  induction j generalizing k with
  | zero =>
    obtain rfl : k = D := by omega
    exact ⟨h.top_symm, h.top_pos, h.top_corr⟩
  | succ j ih =>
    obtain ⟨h1, h2, h3⟩ := ih (k := k + 1) (by omega)
    have hup : ∀ a ∈ H.at k, H.parent a ∈ H.at (k + 1) := fun a ha => by
      obtain ⟨ha1, ha2⟩ := mem_at.1 ha
      obtain ⟨e1, e2⟩ := h.up a ha1 (by omega)
      exact mem_at.2 ⟨e1, by omega⟩
    have hlaw : ∀ a ∈ H.at k, ∀ b ∈ H.at k, H.cov a b = H.load a * H.load b * H.cov (H.parent a) (H.parent b) + if a = b then H.noise a else 0 :=
      fun a ha b hb => h.law a (mem_at.1 ha).1 b (mem_at.1 hb).1 (by rw [(mem_at.1 ha).2, (mem_at.1 hb).2]) (by rw [(mem_at.1 ha).2]; omega)
    have hn : ∀ a ∈ H.at k, 0 < H.noise a := fun a ha => h.noise a (mem_at.1 ha).1 (by rw [(mem_at.1 ha).2]; omega)
    refine ⟨fun p hp q hq => ?_, fun p hp => ?_, fun p hp q hq hpq => ?_⟩
    · by_cases hpq : p = q
      · rw [hpq]
      · rw [hlaw p hp q hq, hlaw q hq p hp, h1 _ (hup p hp) _ (hup q hq), if_neg hpq, if_neg (Ne.symm hpq)]
        ring
    · rw [hlaw p hp p hp, if_pos rfl]
      have := (h2 _ (hup p hp)).le
      have : 0 ≤ H.load p * H.load p * H.cov (H.parent p) (H.parent p) := mul_nonneg (mul_self_nonneg _) this
      linarith [hn p hp]
    · rw [hlaw p hp q hq, hlaw p hp p hp, hlaw q hq q hq, if_neg hpq, if_pos rfl, if_pos rfl]
      have a1 := (h2 _ (hup p hp)).le
      have a2 := (h2 _ (hup q hq)).le
      have a3 : H.cov (H.parent p) (H.parent q) ^ 2 ≤ H.cov (H.parent p) (H.parent p) * H.cov (H.parent q) (H.parent q) := by
        by_cases e : H.parent p = H.parent q
        · rw [e, sq]
        · exact (h3 _ (hup p hp) _ (hup q hq) e).le
      have b1 := hn p hp
      have b2 := hn q hq
      have c1 : 0 ≤ H.load p * H.load p * H.cov (H.parent p) (H.parent p) := mul_nonneg (mul_self_nonneg _) a1
      have c2 : 0 ≤ H.load q * H.load q * H.cov (H.parent q) (H.parent q) := mul_nonneg (mul_self_nonneg _) a2
      have c3 : (H.load p * H.load q) ^ 2 * H.cov (H.parent p) (H.parent q) ^ 2 ≤
          (H.load p * H.load q) ^ 2 * (H.cov (H.parent p) (H.parent p) * H.cov (H.parent q) (H.parent q)) :=
        mul_le_mul_of_nonneg_left a3 (sq_nonneg _)
      have c4 := mul_pos b1 b2
      have c5 := mul_nonneg c1 b2.le
      have c6 := mul_nonneg c2 b1.le
      nlinarith

/-- The ancestor so many levels up. -/
def Hierarchy.anc (H : Hierarchy N) (j : Nat) (a : N) : N := H.parent^[j] a

/-- The product of the loads on the way up. -/
def Hierarchy.lam (H : Hierarchy N) (j : Nat) (a : N) : ℝ := ∏ i ∈ Finset.range j, H.load (H.anc i a)

theorem anc_succ (j : Nat) (a : N) : H.anc (j + 1) a = H.parent (H.anc j a) := Function.iterate_succ_apply' _ _ _

theorem lam_succ (j : Nat) (a : N) : H.lam (j + 1) a = H.lam j a * H.load (H.anc j a) := Finset.prod_range_succ _ _

theorem Hierarchy.Good.anc_at (h : H.Good D) {j : Nat} (hj : j ≤ D) {a : N} (ha : a ∈ H.at 0) : H.anc j a ∈ H.at j := by
  induction j with
  | zero => exact ha
  | succ j ih =>
    obtain ⟨h1, h2⟩ := mem_at.1 (ih (by omega))
    obtain ⟨e1, e2⟩ := h.up _ h1 (by omega)
    rw [anc_succ]
    exact mem_at.2 ⟨e1, by omega⟩

theorem Hierarchy.Good.lam_ne (h : H.Good D) {j : Nat} (hj : j ≤ D) {a : N} (ha : a ∈ H.at 0) : H.lam j a ≠ 0 := by
  refine Finset.prod_ne_zero_iff.2 fun i hi => ?_
  have hi' := Finset.mem_range.1 hi
  obtain ⟨h1, h2⟩ := mem_at.1 (h.anc_at (j := i) (by omega) ha)
  exact h.load _ h1 (by omega)

/-- The covariance of two observed variables with different ancestors on a level. -/
theorem Hierarchy.Good.cov_anc (h : H.Good D) {j : Nat} (hj : j ≤ D) {a b : N} (ha : a ∈ H.at 0) (hb : b ∈ H.at 0) (hne : H.anc j a ≠ H.anc j b) :
    H.cov a b = H.lam j a * H.lam j b * H.cov (H.anc j a) (H.anc j b) := by
  induction j with
  | zero => simp [Hierarchy.lam, Hierarchy.anc]
  | succ j ih =>
    have hne' : H.anc j a ≠ H.anc j b := fun e => hne (by rw [anc_succ, anc_succ, e])
    obtain ⟨a1, a2⟩ := mem_at.1 (h.anc_at (j := j) (by omega) ha)
    obtain ⟨b1, b2⟩ := mem_at.1 (h.anc_at (j := j) (by omega) hb)
    rw [ih (by omega) hne', h.law _ a1 _ b1 (by rw [a2, b2]) (by omega), if_neg hne', lam_succ, lam_succ, anc_succ, anc_succ]
    ring

/-- The same one level higher, also for a common parent. -/
theorem Hierarchy.Good.cov_anc_succ (h : H.Good D) {j : Nat} (hj : j < D) {a b : N} (ha : a ∈ H.at 0) (hb : b ∈ H.at 0) (hne : H.anc j a ≠ H.anc j b) :
    H.cov a b = H.lam (j + 1) a * H.lam (j + 1) b * H.cov (H.anc (j + 1) a) (H.anc (j + 1) b) := by
  obtain ⟨a1, a2⟩ := mem_at.1 (h.anc_at (j := j) (by omega) ha)
  obtain ⟨b1, b2⟩ := mem_at.1 (h.anc_at (j := j) (by omega) hb)
  rw [h.cov_anc hj.le ha hb hne, h.law _ a1 _ b1 (by rw [a2, b2]) (by omega), if_neg hne, lam_succ, lam_succ, anc_succ, anc_succ]
  ring

/-- Two children of a latent variable and two other variables of its level with the same parent: the tetrad difference that pairs the children is not zero. -/
theorem Hierarchy.Good.inner (h : H.Good D) {j : Nat} (hj : j + 1 < D) {a b c d : N} (ha : a ∈ H.at 0) (hb : b ∈ H.at 0) (hc : c ∈ H.at 0)
    (hd : d ∈ H.at 0) (hab : H.anc j a ≠ H.anc j b) (hab' : H.anc (j + 1) a = H.anc (j + 1) b) (hcd : H.anc (j + 1) c ≠ H.anc (j + 1) d)
    (hac : H.anc (j + 1) a ≠ H.anc (j + 1) c) (had : H.anc (j + 1) a ≠ H.anc (j + 1) d) (hpc : H.anc (j + 2) a = H.anc (j + 2) c)
    (hpd : H.anc (j + 2) a = H.anc (j + 2) d) : H.cov a b * H.cov c d ≠ H.cov a d * H.cov c b := by
  have hcb : H.anc (j + 1) c ≠ H.anc (j + 1) b := by rw [← hab']; exact hac.symm
  have hpb : H.anc (j + 2) b = H.anc (j + 2) a := by rw [anc_succ (j + 1) b, anc_succ (j + 1) a, hab']
  have hpos : 0 < H.cov (H.anc (j + 2) a) (H.anc (j + 2) a) :=
    (h.regular (k := j + 2) (j := D - (j + 2)) (by omega)).2.1 _ (h.anc_at (by omega) ha)
  obtain ⟨l1, l2⟩ := mem_at.1 (h.anc_at (j := j + 1) (by omega) ha)
  have hn := h.noise _ l1 (by omega)
  have hl := h.law _ l1 _ l1 rfl (by omega)
  rw [if_pos rfl, ← anc_succ] at hl
  rw [h.cov_anc_succ (by omega) ha hb hab, h.cov_anc_succ hj hc hd hcd, h.cov_anc_succ hj ha hd had, h.cov_anc_succ hj hc hb hcb, ← hab', hl]
  simp only [← hpc, ← hpd, hpb]
  rw [lam_succ (j + 1) a, lam_succ (j + 1) b, ← hab']
  intro e
  have n1 := h.lam_ne (j := j + 1) (by omega) ha
  have n2 := h.lam_ne (j := j + 1) (by omega) hb
  have n3 := h.lam_ne (j := j + 2) (by omega) hc
  have n4 := h.lam_ne (j := j + 2) (by omega) hd
  have hprod : H.lam (j + 1) a * H.lam (j + 1) b * (H.lam (j + 2) c * H.lam (j + 2) d) * H.cov (H.anc (j + 2) a) (H.anc (j + 2) a) * H.noise (H.anc (j + 1) a) = 0 := by
    linear_combination e
  have : H.lam (j + 1) a * H.lam (j + 1) b * (H.lam (j + 2) c * H.lam (j + 2) d) * H.cov (H.anc (j + 2) a) (H.anc (j + 2) a) * H.noise (H.anc (j + 1) a) ≠ 0 :=
    mul_ne_zero (mul_ne_zero (mul_ne_zero (mul_ne_zero n1 n2) (mul_ne_zero n3 n4)) hpos.ne') hn.ne'
  exact this hprod

end Cdmir.Hier
