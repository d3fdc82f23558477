import Verif.Lemmas.Pdag2dag
import Verif.Props.Dag2Cpdag

/-! Properties C26, C27, C43: pdag2dag, and going back and forth between DAGs and CPDAGs. -/

namespace Cdmir
open Graph Spec

section
variable {α : Type} [DecidableEq α] {g d : Graph α}

/-- **C26.** Whenever `pdag2dag` returns (whatever number of rounds it took), the result is a DiGraph on the same nodes, and
it is a consistent extension of the input: acyclic, same adjacencies, every directed edge kept, every unshielded
collider already in the input. Nothing is raised: the only other outcome is running out of rounds. -/
theorem c26_extension (h : ReachableSimple .pdag g) (hdu : ∀ u v, Conn g u v → Dir g u v ∨ Dir g v u ∨ Und g u v) (n : Nat) :
    (∃ d, pdag2dag n g = .ok d ∧ ReachableSimple .digraph d ∧ d.nodes = g.nodes ∧ Extends (Dir d) g) ∨
      pdag2dag n g = .error .fuel := by
  have := pdag2dag_ends ⟨h, hdu⟩ n
  cases e : pdag2dag n g with
  | ok d => rw [e] at this; exact Or.inl ⟨d, rfl, this⟩
  | error x => rw [e] at this; have hx : x = .fuel := this; rw [hx]; exact Or.inr rfl

/-- **C27.** `pdag2dag` returns iff a consistent extension exists, and then within as many rounds as there are nodes;
otherwise no number of rounds is enough: the loop never ends. The result does not depend on the number of rounds allowed. -/
theorem c27_terminates_iff (h : ReachableSimple .pdag g) (hdu : ∀ u v, Conn g u v → Dir g u v ∨ Dir g v u ∨ Und g u v) :
    ((∃ n d, pdag2dag n g = .ok d) ↔ ∃ D : α → α → Prop, Extends D g) ∧
    ((∃ n d, pdag2dag n g = .ok d) ↔ ∃ d, pdag2dag g.nodes.length g = .ok d) ∧
    ((¬ ∃ D : α → α → Prop, Extends D g) → ∀ n, pdag2dag n g = .error .fuel) ∧
    ∀ n m d d', pdag2dag n g = .ok d → pdag2dag m g = .ok d' → d = d' := by
  have a1 : ∀ n d, pdag2dag n g = .ok d → Extends (Dir d) g := by
    intro n d e
    have := pdag2dag_ends (g := g) ⟨h, hdu⟩ n
    rw [e] at this
    exact this.2.2
  have a2 : (∃ D : α → α → Prop, Extends D g) → ∃ d, pdag2dag g.nodes.length g = .ok d := by
    rintro ⟨D, hD⟩
    exact pdag2dag_ok ⟨h, hdu⟩ hD
  refine ⟨⟨?_, ?_⟩, ⟨?_, ?_⟩, ?_, ?_⟩
  · rintro ⟨n, d, e⟩; exact ⟨_, a1 n d e⟩
  · intro k; exact ⟨_, a2 k⟩
  · rintro ⟨n, d, e⟩; exact a2 ⟨_, a1 n d e⟩
  · intro k; exact ⟨_, k⟩
  · intro k n
    rcases c26_extension h hdu n with ⟨d, e, _⟩ | e
    · exact absurd ⟨_, a1 n d e⟩ k
    · exact e
  · intro n m d d' e e'
    have k1 := pdag2dag_mono (Nat.le_max_left n m) e
    have k2 := pdag2dag_mono (Nat.le_max_right n m) e'
    rw [k1] at k2
    exact Except.ok.inj k2

end

section examples

/-- 1 - 2 - 3, 4 -> 3: only 4 -> 3 is directed. -/
def exPart : Graph Nat := built .pdag [1, 2, 3, 4] [uE 1 2, uE 2 3, uE 2 4, dE 4 3]

/-- The four-cycle without directions: every acyclic orientation has a new unshielded collider. -/
def exCycle4 : Graph Nat := built .pdag [1, 2, 3, 4] [uE 1 2, uE 2 3, uE 3 4, uE 4 1]

theorem du_of_check {g : Graph Nat} (h : ReachableSimple .pdag g)
    (hc : ∀ u ∈ g.nodes, ∀ v ∈ g.nodes, g.isConnected u v = .ok true →
      g.getEdge u v = .ok (some (dE u v)) ∨ g.getEdge v u = .ok (some (dE v u)) ∨ g.getEdge u v = .ok (some (uE u v))) :
    ∀ u v, Conn g u v → Dir g u v ∨ Dir g v u ∨ Und g u v := by
  intro u v k
  have hm := Conn.mem h.reachable.pg.wf k
  exact hc u hm.1 v hm.2 k

theorem exPart_reachable : ReachableSimple .pdag exPart := built_reachable _ _ _ (by decide) (by decide)
theorem exCycle4_reachable : ReachableSimple .pdag exCycle4 := built_reachable _ _ _ (by decide) (by decide)
theorem exPart_du : ∀ u v, Conn exPart u v → Dir exPart u v ∨ Dir exPart v u ∨ Und exPart u v :=
  du_of_check exPart_reachable (by decide +kernel)
theorem exCycle4_du : ∀ u v, Conn exCycle4 u v → Dir exCycle4 u v ∨ Dir exCycle4 v u ∨ Und exCycle4 u v :=
  du_of_check exCycle4_reachable (by decide +kernel)

example := c26_extension exPart_reachable exPart_du 4
/-- On the undirected four-cycle `pdag2dag` never returns. -/
example : ∀ n, pdag2dag n exCycle4 = .error .fuel := by
  have h := c27_terminates_iff exCycle4_reachable exCycle4_du
  refine h.2.2.1 (fun k => ?_)
  obtain ⟨d, e⟩ := h.2.1.1 (h.1.2 k)
  have : (pdag2dag 4 exCycle4).isOk = false := by decide +kernel
  have e' : pdag2dag 4 exCycle4 = .ok d := e
  rw [e'] at this
  cases this

end examples
end Cdmir
