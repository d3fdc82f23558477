import Verif.Spec.DSep

/-! Specification vocabulary for partially directed graphs: edges as seen through `get_edge` / `is_connected`, the four
rule patterns, and consistent DAG extensions. -/

namespace Cdmir
variable {α : Type} [DecidableEq α]

/-- Observed through graph.py L65-68: `u --- v`. -/
def Und (g : Graph α) (u v : α) : Prop := g.getEdge u v = .ok (some ⟨u, v, .tail, .tail⟩)

/-- Observed through graph.py L110-113. -/
def Conn (g : Graph α) (u v : α) : Prop := g.isConnected u v = .ok true

namespace Spec

/-- pdag.py L35-59, as a pattern: some `u -> a`, `a --- b`, `u` and `b` not adjacent. -/
def Pat1 (g : Graph α) (a b : α) : Prop := ∃ u, u ≠ b ∧ Dir g u a ∧ ¬ Conn g u b ∧ Und g a b

/-- pdag.py L61-87, as a pattern: `a -> v -> b` and `a --- b`. -/
def Pat2 (g : Graph α) (a b : α) : Prop := ∃ v, Dir g a v ∧ Dir g v b ∧ Und g a b

/-- pdag.py L89-109, as a pattern: `a --- v -> b`, `a --- x -> b`, `v ≠ x` and `a --- b`. -/
def Pat3 (g : Graph α) (a b : α) : Prop :=
  ∃ v x, v ≠ a ∧ x ≠ a ∧ v ≠ x ∧ Und g a v ∧ Dir g v b ∧ Und g a x ∧ Dir g x b ∧ Und g a b

/-- pdag.py L111-132, as a pattern: `u --- v -> b`, `u --- a --- b`, `v` and `a` adjacent, `u` and `b` not. -/
def Pat4 (g : Graph α) (a b : α) : Prop :=
  ∃ u v, u ≠ b ∧ u ≠ v ∧ u ≠ a ∧ v ≠ a ∧ ¬ Conn g u b ∧ Und g u v ∧ Dir g v b ∧ Und g u a ∧ Conn g v a ∧ Und g a b

/-- The separating set stored under the key `(u, v)` exists and does not contain `w` (pdag.py L26). -/
def Outside (sep : Dict (α × α) (List α)) (u v w : α) : Prop := ∃ s, dget sep (u, v) = some s ∧ w ∉ s

/-- pdag.py L17-30, as a pattern: `u`, `w`, `v` is an unshielded triple and `w` is not in the separating set of its ends,
looked up with the end that comes first among the nodes as first component. -/
def Claims (g : Graph α) (sep : Dict (α × α) (List α)) (u w v : α) : Prop :=
  w ≠ u ∧ w ≠ v ∧ Conn g u w ∧ Conn g v w ∧ ¬ Conn g u v ∧
    ((g.nodes.idxOf u < g.nodes.idxOf v ∧ Outside sep u v w) ∨ (g.nodes.idxOf v < g.nodes.idxOf u ∧ Outside sep v u w))

/-- `D` is a consistent DAG extension of the partially directed graph `g`: acyclic, same adjacencies, contains the
directed edges of `g`, and each of its unshielded colliders is one of `g`. -/
structure Extends (D : α → α → Prop) (g : Graph α) : Prop where
  acyclic : Acyclic D
  adj : ∀ u v, Adj D u v ↔ u ≠ v ∧ Conn g u v
  dir : ∀ u v, Dir g u v → D u v
  collider : ∀ u w v, u ≠ v → D u w → D v w → ¬ Adj D u v → Dir g u w ∧ Dir g v w

/-- `g'` is `g` with some undirected edges turned into directed ones: same nodes, same adjacencies, every edge that is
not undirected unchanged, an undirected edge is still undirected or directed one way. -/
structure OnlyOrients (g g' : Graph α) : Prop where
  nodes : g'.nodes = g.nodes
  kind : g'.kind = g.kind
  conn : ∀ u v, g'.isConnected u v = g.isConnected u v
  keep : ∀ u v, ¬ Und g u v → g'.getEdge u v = g.getEdge u v
  und : ∀ u v, u ≠ v → Und g u v → Und g' u v ∨ Dir g' u v ∨ Dir g' v u

/-- Four distinct mutually adjacent nodes. -/
def Clique4 (g : Graph α) (a b c d : α) : Prop :=
  [a, b, c, d].Nodup ∧ Conn g a b ∧ Conn g a c ∧ Conn g a d ∧ Conn g b c ∧ Conn g b d ∧ Conn g c d

end Spec
end Cdmir
