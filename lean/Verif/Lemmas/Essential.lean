import Verif.Lemmas.Complete
import Verif.Lemmas.Pattern
import Verif.Spec.Class

/-! The edges common to all DAGs of a Markov equivalence class are exactly those forced by the unshielded colliders and the
first three orientation rules (Meek 1995), over relations. -/

namespace Cdmir
namespace Complete
open Spec
variable {α : Type} [DecidableEq α] {N : List α} {G D : α → α → Prop}

/-- Forced directions: unshielded colliders, then the rules. -/
inductive Meek (G : α → α → Prop) : α → α → Prop
  | coll {u w v : α} : VStruct G u w v → Meek G u w
  | r1 {d a b : α} : Meek G d a → Adj G a b → d ≠ b → ¬ Adj G d b → ¬ VStruct G d a b → Meek G a b
  | r2 {a d b : α} : Meek G a d → Meek G d b → Adj G a b → Meek G a b
  | r3 {a v x b : α} : Meek G v b → Meek G x b → v ≠ x → ¬ Adj G v x → Adj G a v → Adj G a x → Adj G a b →
      ¬ VStruct G v a x → Meek G a b

omit [DecidableEq α] in
theorem Meek.sound (hD : InClass G D) {a b : α} (h : Meek G a b) : D a b := by
  induction h with
  | coll h => exact ((hD.vstruct _ _ _).2 h).2.1
  | @r1 d a b _ h1 h2 h3 h4 ih =>
    rcases (hD.adj a b).2 h1 with k | k
    · exact k
    · exact absurd ((hD.vstruct d a b).1 ⟨h2, ih, k, fun q => h3 ((hD.adj _ _).1 q)⟩) h4
  | @r2 a d b _ _ h ih1 ih2 =>
    rcases (hD.adj a b).2 h with k | k
    · exact k
    · exact absurd (((Relation.TransGen.single ih1).tail ih2).tail k) (hD.acyclic a)
  | @r3 a v x b _ _ h1 h2 h3 h4 h5 h6 ih1 ih2 =>
    rcases (hD.adj a b).2 h5 with k | k
    · exact k
    · have up : ∀ y, D y b → Adj G a y → D y a := by
        intro y hy q
        rcases (hD.adj a y).2 q with q | q
        · exact absurd (((Relation.TransGen.single q).tail hy).tail k) (hD.acyclic a)
        · exact q
      exact absurd ((hD.vstruct v a x).1 ⟨h1, up v ih1 h3, up x ih2 h4, fun q => h2 ((hD.adj _ _).1 q)⟩) h6

omit [DecidableEq α] in
theorem InClass.self (ac : Acyclic G) : InClass G G := ⟨ac, fun _ _ => Iff.rfl, fun _ _ _ => Iff.rfl⟩

/-- Adjacent and not forced. -/
def Free (G : α → α → Prop) (a b : α) : Prop := Adj G a b ∧ ¬ Meek G a b ∧ ¬ Meek G b a

omit [DecidableEq α] in
theorem meek_adj (ac : Acyclic G) (a b : α) : C (Meek G) (Free G) a b ↔ Adj G a b := by
  constructor
  · rintro (k | k | k)
    · exact Or.inl (k.sound (InClass.self ac))
    · exact Or.inr (k.sound (InClass.self ac))
    · exact k.1
  · intro k
    by_cases h1 : Meek G a b
    · exact Or.inl h1
    · by_cases h2 : Meek G b a
      · exact Or.inr (Or.inl h2)
      · exact Or.inr (Or.inr ⟨k, h1, h2⟩)

omit [DecidableEq α] in
theorem meek_closed (ac : Acyclic G) (hN : ∀ a b, G a b → a ∈ N ∧ b ∈ N) : Closed N (Meek G) (Free G) := by
  have self := InClass.self ac
  have hC := meek_adj ac
  refine ⟨fun a b k => (hN _ _ (k.sound self)).1, fun a b k => ?_, fun a b k => ⟨k.1.symm, k.2.2, k.2.1⟩, fun a k => ?_,
    fun a b k q => q.2.1 k, ?_, ?_, ?_, fun a k => ac a (Relation.TransGen.mono (fun _ _ q => Meek.sound self q) _ _ k), ?_⟩
  · rcases k.1 with q | q
    · exact (hN _ _ q).1
    · exact (hN _ _ q).2
  · exact ac.adj_ne k.1 rfl
  · intro u a b h1 h2 hne
    rw [hC]
    by_contra hn
    exact h2.2.1 (.r1 h1 h2.1 hne hn (fun q => h2.2.2 (.coll ⟨q.1.symm, q.2.2.1, q.2.1, fun z => q.2.2.2 z.symm⟩)))
  · intro a v b h1 h2 k
    exact k.2.1 (.r2 h1 h2 k.1)
  · intro a v x b hvx hn h1 h2 h3 h4 k
    rw [hC] at hn
    exact k.2.1 (.r3 h2 h4 hvx hn h1.1 h3.1 k.1 (fun q => h1.2.2 (.coll q)))
  · intro a b k
    simp only [hC]
    cases k with
    | @coll _ _ v h => exact Or.inl ⟨v, h.1.symm, .coll ⟨h.1.symm, h.2.2.1, h.2.1, fun z => h.2.2.2 z.symm⟩, fun z => h.2.2.2 z.symm⟩
    | @r1 d _ _ h0 h1 h2 h3 h4 => exact Or.inr (Or.inl ⟨d, h2, h0, h3⟩)
    | @r2 _ d _ h1 h2 => exact Or.inr (Or.inr (Or.inl ⟨d, h1, h2⟩))
    | @r3 _ v x _ h1 h2 h3 h4 h5 h6 h7 h8 =>
      exact Or.inr (Or.inr (Or.inr ⟨v, x, h3, h4, h5, h6, h1, h2, fun q => h8 ⟨h3, q.1.sound self, q.2.sound self, h4⟩⟩))

/-- Completeness of the rules: each free edge is directed either way in the class. -/
theorem free_either_way (hnd : N.Nodup) (ac : Acyclic G) (hN : ∀ a b, G a b → a ∈ N ∧ b ∈ N) {u v : α} (h : Free G u v) :
    ∃ D, InClass G D ∧ D u v := by
  have self := InClass.self ac
  have hC := meek_adj ac
  obtain ⟨D, h1, h2, h3, h4, h5⟩ := (meek_closed ac hN).either_way hnd ac (fun a b k => (hN a b k).2) (fun a b => (hC a b).symm)
    (fun u w v hne k1 k2 k3 => .coll ⟨hne, k1, k2, fun q => k3 ((hC _ _).2 q)⟩) h
  refine ⟨D, ⟨h2, fun a b => by rw [h3, hC], fun x w y => ⟨fun k => ?_, fun k => ?_⟩⟩, h1⟩
  · obtain ⟨k1, k2, k3, k4⟩ := k
    rw [h3] at k4
    have := h5 x w y k1 k2 k3 k4
    exact ⟨k1, this.1.sound self, this.2.sound self, fun q => k4 ((hC _ _).2 q)⟩
  · refine ⟨k.1, h4 _ _ (.coll k), h4 _ _ (.coll ⟨k.1.symm, k.2.2.1, k.2.1, fun z => k.2.2.2 z.symm⟩), fun q => k.2.2.2 ?_⟩
    rwa [h3, hC] at q

/-- The forced directions are the edges common to the class. -/
theorem meek_iff (hnd : N.Nodup) (ac : Acyclic G) (hN : ∀ a b, G a b → a ∈ N ∧ b ∈ N) (u v : α) :
    (∀ D, InClass G D → D u v) ↔ Meek G u v := by
  refine ⟨fun h => ?_, fun h D hD => h.sound hD⟩
  have self := InClass.self ac
  have hg := h G self
  rcases (meek_adj ac u v).2 (Or.inl hg) with k | k | k
  · exact k
  · exact absurd (k.sound self) (ac.asymm _ _ hg)
  · obtain ⟨D, hD, hvu⟩ := free_either_way hnd ac hN (show Free G v u from ⟨k.1.symm, k.2.2, k.2.1⟩)
    exact absurd (h D hD) (hD.acyclic.asymm _ _ hvu)

theorem free_iff (hnd : N.Nodup) (ac : Acyclic G) (hN : ∀ a b, G a b → a ∈ N ∧ b ∈ N) (u v : α) :
    ((∃ D, InClass G D ∧ D u v) ∧ ∃ D, InClass G D ∧ D v u) ↔ Free G u v := by
  constructor
  · rintro ⟨⟨D, hD, k1⟩, ⟨D', hD', k2⟩⟩
    exact ⟨(hD.adj _ _).1 (Or.inl k1), fun k => hD'.acyclic.asymm _ _ k2 (k.sound hD'), fun k => hD.acyclic.asymm _ _ k1 (k.sound hD)⟩
  · intro k
    exact ⟨free_either_way hnd ac hN k, free_either_way hnd ac hN ⟨k.1.symm, k.2.2, k.2.1⟩⟩

end Complete
end Cdmir
