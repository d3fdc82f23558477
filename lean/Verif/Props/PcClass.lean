import Verif.Props.Cpdag
import Verif.Props.Indep

/-! Property C44: what `PC.fit` with the d-separation test of a DAG says about the class of the DAG. -/

namespace Cdmir
open Graph Spec

section
variable {α : Type} [DecidableEq α] {G : Graph α}

/-- **C44, what holds.** The full claim - with the d-separation test of a DAG `G`, PC directs `u -> v` iff every DAG of the
class of `G` has `u -> v` - is false (`c44_false`). It holds, with either search and any level in `(0, 1]`, when no two
triangles of `G` share an edge; missing are the other graphs. -/
theorem c44_pc_class_partial (hG : Reachable .digraph G) (ac : Acyclic (Dir G))
    (ht : ∀ a b c d, ¬ TwoTriangles (Dir G) a b c d) {alpha : ℚ} (ha : 0 < alpha) (ha' : alpha ≤ 1)
    (search : CITest α (Cache (ℚ × ℚ)) ℚ → List α → ℚ → Cache (ℚ × ℚ) → Except Err (Graph α × Sep α × Cache (ℚ × ℚ)))
    (hsearch : search = adjacencySearch ∨ search = fastAdjacencySearch) :
    ∃ r st', pcFit search (dsepTest G.nodes G) G.nodes alpha [] = .ok (r, st') ∧
      (∀ u v, Dir r.causal u v ↔ ∀ D, InClass (Dir G) D → D u v) ∧
      ∀ u v, Und r.causal u v ↔ (∃ D, InClass (Dir G) D ∧ D u v) ∧ ∃ D, InClass (Dir G) D ∧ D v u := by
  obtain ⟨r, st', c, e, ec, _, h⟩ := c32_pc_dsep hG ac (so := id) (fun l => List.Perm.refl l) ha ha' search hsearch
  obtain ⟨c', ec', h1, h2⟩ := c24_class_partial (so := id) (fun l => List.Perm.refl l) hG ac ht
  rw [ec] at ec'
  cases ec'
  refine ⟨r, st', e, fun u v => ?_, fun u v => ?_⟩
  · rw [← h1]; unfold Dir; rw [h]
  · rw [← h2]; unfold Und; rw [h]

end

/-- **C44 is false.** With the d-separation test of a DAG, PC directs `u -> v` although the DAG itself has `v -> u`. -/
theorem c44_false : ∃ (G : Graph Nat) (r : PCResult Nat) (st' : Cache (ℚ × ℚ)) (u v : Nat),
    Reachable .digraph G ∧ Acyclic (Dir G) ∧ pcFit adjacencySearch (dsepTest G.nodes G) G.nodes (1 / 20) [] = .ok (r, st') ∧
      Dir r.causal u v ∧ Dir G v u := by
  obtain ⟨G, c, u, v, h1, h2, h3, h4, _, h5⟩ := c24_false
  obtain ⟨r, st', c', e, ec, _, h⟩ := c32_pc_dsep h1 h2 (so := id) (fun l => List.Perm.refl l) (alpha := 1 / 20)
    (by decide +kernel) (by decide +kernel) adjacencySearch (Or.inl rfl)
  rw [h3] at ec
  cases ec
  refine ⟨G, r, st', u, v, h1, h2, e, ?_, h5⟩
  unfold Dir
  rw [h]; exact h4

example := c44_pc_class_partial exTriTail_reachable (acyclic_of_check exTriTail_reachable (by decide +kernel))
  (noTwoTriangles_of_check exTriTail_reachable (by decide +kernel)) (alpha := 1 / 20) (by decide +kernel) (by decide +kernel)
  fastAdjacencySearch (Or.inr rfl)

end Cdmir
