import Verif.Lemmas.GESOps

/-! The effect of the two operators of GES on any graph, without the conditions under which GES calls them. -/

namespace Cdmir
namespace GES
open Graph Spec
variable {α : Type} [DecidableEq α] {g : Graph α}

theorem insertOp_gen (h : DU g) {i j : α} (hi : i ∈ g.nodeList) (hj : j ∈ g.nodeList) (hne : i ≠ j)
    {T : List α} (hT : ∀ t ∈ T, t ∈ g.nodeList ∧ t ≠ j) : ∃ g', insertOp g i j T = .ok g' ∧
      Eff g g' (fun a b => (b = j ∧ (a = i ∨ a ∈ T)) ∨ (Dir g a b ∧ ¬ (a = j ∧ (b = i ∨ b ∈ T))))
        (fun a b => Und g a b ∧ ¬ (b = j ∧ (a = i ∨ a ∈ T)) ∧ ¬ (a = j ∧ (b = i ∨ b ∈ T))) := by
  unfold insertOp
  obtain ⟨g1, e1, f1⟩ := put_eff h hi hj hne
  rw [e1]
  simp only [bind, Except.bind]
  refine foldlM_pre (P := fun pre s => Eff g s (fun a b => (b = j ∧ (a = i ∨ a ∈ pre)) ∨ (Dir g a b ∧ ¬ (a = j ∧ (b = i ∨ b ∈ pre))))
    (fun a b => Und g a b ∧ ¬ (b = j ∧ (a = i ∨ a ∈ pre)) ∧ ¬ (a = j ∧ (b = i ∨ b ∈ pre)))) T ?_ g1 ?_
  · intro pre x s hp hs
    have hx : x ∈ T := hp.subset (by simp)
    have hxn := hT x hx
    obtain ⟨g2, e2, f2⟩ := drop_eff hs.du (u := x) (v := j) (by rw [hs.nodes]; exact hxn.1) (by rw [hs.nodes]; exact hj)
    obtain ⟨g3, e3, f3⟩ := put_eff f2.du (u := x) (v := j) (by rw [f2.nodes, hs.nodes]; exact hxn.1)
      (by rw [f2.nodes, hs.nodes]; exact hj) hxn.2
    refine ⟨g3, ?_, f3.du, by rw [f3.nodes, f2.nodes, hs.nodes], fun a b => ?_, fun a b => ?_⟩
    · simp only [e2, e3]
    · rw [f3.dir, f2.dir, hs.dir]
      unfold Same
      simp only [List.mem_append, List.mem_singleton]
      grind
    · rw [f3.und, f2.und, hs.und]
      unfold Same
      simp only [List.mem_append, List.mem_singleton]
      grind
  · refine f1.congr (fun a b => ?_) (fun a b => ?_) <;> unfold Same <;> simp only [List.not_mem_nil, or_false] <;> grind

theorem deleteOp_gen (h : DU g) {i j : α} (hi : i ∈ g.nodeList) (hj : j ∈ g.nodeList) (hne : i ≠ j)
    {H : List α} (hH : ∀ t ∈ H, t ∈ g.nodeList ∧ t ≠ i ∧ t ≠ j) : ∃ g', deleteOp g i j H = .ok g' ∧
      Eff g g' (fun a b => (b ∈ H ∧ (a = i ∨ a = j)) ∨ (Dir g a b ∧ ¬ Same i j a b ∧ ¬ (a ∈ H ∧ (b = i ∨ b = j))))
        (fun a b => Und g a b ∧ ¬ Same i j a b ∧ ¬ (b ∈ H ∧ (a = i ∨ a = j)) ∧ ¬ (a ∈ H ∧ (b = i ∨ b = j))) := by
  unfold deleteOp
  obtain ⟨g1, e1, f1⟩ := drop_eff h hi hj
  rw [e1]
  simp only [bind, Except.bind]
  refine foldlM_pre (P := fun pre s => Eff g s
    (fun a b => (b ∈ pre ∧ (a = i ∨ a = j)) ∨ (Dir g a b ∧ ¬ Same i j a b ∧ ¬ (a ∈ pre ∧ (b = i ∨ b = j))))
    (fun a b => Und g a b ∧ ¬ Same i j a b ∧ ¬ (b ∈ pre ∧ (a = i ∨ a = j)) ∧ ¬ (a ∈ pre ∧ (b = i ∨ b = j)))) H ?_ g1 ?_
  · intro pre x s hp hs
    have hx : x ∈ H := hp.subset (by simp)
    obtain ⟨hxn, hxi, hxj⟩ := hH x hx
    have hpre : ∀ t ∈ pre, t ≠ i ∧ t ≠ j := fun t ht => (hH t (hp.subset (by simp [ht]))).2
    have ni := hs.nodes
    obtain ⟨g2, e2, f2⟩ := drop_eff hs.du (u := j) (v := x) (by rw [ni]; exact hj) (by rw [ni]; exact hxn)
    have n2 := f2.nodes.trans ni
    obtain ⟨g3, e3, f3⟩ := drop_eff f2.du (u := i) (v := x) (by rw [n2]; exact hi) (by rw [n2]; exact hxn)
    have n3 := f3.nodes.trans n2
    obtain ⟨g4, e4, f4⟩ := put_eff f3.du (u := j) (v := x) (by rw [n3]; exact hj) (by rw [n3]; exact hxn) (Ne.symm hxj)
    have n4 := f4.nodes.trans n3
    obtain ⟨g5, e5, f5⟩ := put_eff f4.du (u := i) (v := x) (by rw [n4]; exact hi) (by rw [n4]; exact hxn) (Ne.symm hxi)
    refine ⟨g5, ?_, f5.du, f5.nodes.trans n4, fun a b => ?_, fun a b => ?_⟩
    · simp only [e2, e3, e4, e5]
    · rw [f5.dir, f4.dir, f3.dir, f2.dir, hs.dir]
      unfold Same
      simp only [List.mem_append, List.mem_singleton]
      grind
    · rw [f5.und, f4.und, f3.und, f2.und, hs.und]
      unfold Same
      simp only [List.mem_append, List.mem_singleton]
      grind
  · refine f1.congr (fun a b => ?_) (fun a b => ?_) <;> simp

end GES
end Cdmir
