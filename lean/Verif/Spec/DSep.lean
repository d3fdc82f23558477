import Verif.Model.Graph
import Mathlib.Logic.Relation
import Mathlib.Data.List.Infix

/-!
Specification vocabulary about directed relations: paths, d-separation, cycles. Written over an arbitrary relation `R`
(`R u v`: edge from `u` to `v`), without any helper of the model.
-/

namespace Cdmir

/-- `u -> v` is an edge of the graph: what `get_edge(u, v)` (graph.py L65-68) shows a caller. -/
def Dir {α : Type} [DecidableEq α] (g : Graph α) (u v : α) : Prop :=
  g.getEdge u v = .ok (some ⟨u, v, .tail, .arrow⟩)

namespace Spec
variable {α : Type}

/-- Adjacent in either direction. -/
def Adj (R : α → α → Prop) (u v : α) : Prop := R u v ∨ R v u

/-- `v` is `u` or a descendant of `u`. -/
def Desc (R : α → α → Prop) (u v : α) : Prop := Relation.ReflTransGen R u v

/-- A path from `x` to `y`: distinct nodes, consecutive ones adjacent. -/
def IsPath (R : α → α → Prop) (p : List α) (x y : α) : Prop :=
  p.Nodup ∧ p.head? = some x ∧ p.getLast? = some y ∧ ∀ a b, [a, b] <:+: p → Adj R a b

/-- `b` is a collider between its neighbours `a` and `c` on a path. -/
def Collider (R : α → α → Prop) (a b c : α) : Prop := R a b ∧ R c b

/-- A path is blocked by `Z`: some inner node is a non-collider in `Z`, or a collider that has neither itself nor a
descendant in `Z`. -/
def Blocked (R : α → α → Prop) (Z : α → Prop) (p : List α) : Prop :=
  ∃ a b c, [a, b, c] <:+: p ∧
    ((¬ Collider R a b c ∧ Z b) ∨ (Collider R a b c ∧ ∀ w, Z w → ¬ Desc R b w))

/-- d-separation: every path is blocked. -/
def DSep (R : α → α → Prop) (x y : α) (Z : α → Prop) : Prop := ∀ p, IsPath R p x y → Blocked R Z p

/-- No non-empty directed walk returns to its start. -/
def Acyclic (R : α → α → Prop) : Prop := ∀ u, ¬ Relation.TransGen R u u

end Spec
end Cdmir
