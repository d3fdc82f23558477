import Verif.Spec.Search
import Verif.Spec.PDAG

/-! Markov equivalence classes of DAGs and their completed PDAGs. -/

namespace Cdmir
namespace Spec

/-- `D` is a DAG in the Markov equivalence class of the DAG `G`: acyclic, same adjacencies, same unshielded colliders. -/
structure InClass {α : Type} (G D : α → α → Prop) : Prop where
  acyclic : Acyclic D
  adj : ∀ u v, Adj D u v ↔ Adj G u v
  vstruct : ∀ u w v, VStruct D u w v ↔ VStruct G u w v

/-- `p` is the completed PDAG of the class of `G`: an edge is directed iff all members of the class direct it that way, and
undirected iff members direct it both ways. -/
structure IsCpdag {α : Type} [DecidableEq α] (G : α → α → Prop) (p : Graph α) : Prop where
  dir : ∀ u v, Dir p u v ↔ ∀ D, InClass G D → D u v
  und : ∀ u v, Und p u v ↔ (∃ D, InClass G D ∧ D u v) ∧ ∃ D, InClass G D ∧ D v u

end Spec
end Cdmir
