import Verif.Model.Graph
import Mathlib.Data.Rat.Defs
import Mathlib.Algebra.Order.Field.Rat

/-! Model of cdmir/utils/metrics/graph_evaluation.py L11-76. `get_performance` (L78-94) is in Model/Performance.lean. -/

namespace Cdmir
namespace Graph
variable {α : Type} [DecidableEq α]

/-- graph_evaluation.py L11-16: `_miss_match_graph_type` and `_miss_match_graph_nodes`. The type of a graph object is its
`kind`. -/
def missMatch (g h : Graph α) : Except Err Unit := do
  if g.kind ≠ h.kind then throw .assertion
  if g.nodes ≠ h.nodes then throw .assertion
  pure ()

/-- graph_evaluation.py L18-21: `graph_equal`. `(a == b).all()` on two square arrays of the same size. -/
def graphEqual (g h : Graph α) : Except Err Bool := do
  missMatch g h
  let a ← g.toNumpy
  let b ← h.toNumpy
  pure ((List.range g.nodes.length).all fun i => (List.range g.nodes.length).all fun j => a i j = b i j)

/-- How often both lists say yes: the true positives. Part of the model of sklearn's scores (graph_evaluation.py L5). -/
def tp (t e : List Bool) : Nat := ((t.zip e).filter (fun p => p.1 && p.2)).length

/-- Number of positives of a list. Part of the model of sklearn's scores (graph_evaluation.py L5). -/
def pos (t : List Bool) : Nat := (t.filter id).length

/-- sklearn's `precision_score(t, e)` in exact arithmetic, with `zero_division` at its default (0, plus a warning):
graph_evaluation.py L5, L32, L46, L62. -/
def precisionScore (t e : List Bool) : ℚ := if pos e = 0 then 0 else (tp t e : ℚ) / pos e

/-- sklearn's `recall_score(t, e)` in exact arithmetic: graph_evaluation.py L5, L33, L47, L63. -/
def recallScore (t e : List Bool) : ℚ := if pos t = 0 then 0 else (tp t e : ℚ) / pos t

/-- sklearn's `f1_score(t, e)` in exact arithmetic: `2 tp / (2 tp + fp + fn)`; graph_evaluation.py L5, L34, L48, L64. -/
def f1Score (t e : List Bool) : ℚ := if pos t + pos e = 0 then 0 else (2 * tp t e : ℚ) / (pos t + pos e : ℕ)

/-- The dictionary returned at graph_evaluation.py L31-35, L45-49, L61-65. -/
structure Scores where
  precision : ℚ
  recall : ℚ
  f1 : ℚ
  deriving DecidableEq, Repr

/-- graph_evaluation.py L31-35, L45-49, L61-65: the three calls. -/
def scores (t e : List Bool) : Scores := ⟨precisionScore t e, recallScore t e, f1Score t e⟩

/-- A list comprehension over pairs of nodes (graph_evaluation.py L28-29, L42-43, L56-59). -/
def ask (q : α → α → Except Err Bool) (l : List (α × α)) : Except Err (List Bool) := l.mapM (fun p => q p.1 p.2)

/-- graph_evaluation.py L24-35: `skeleton_evaluation`. -/
def skeletonEvaluation (g h : Graph α) : Except Err Scores := do
  missMatch g h
  let t ← ask g.isConnected (pairs g.nodes)
  let e ← ask h.isConnected (pairs h.nodes)
  pure (scores t e)

/-- graph_evaluation.py L38-49: `arrow_evaluation`. -/
def arrowEvaluation (g h : Graph α) : Except Err Scores := do
  missMatch g h
  let t ← ask g.isArrow (perms2 g.nodes)
  let e ← ask h.isArrow (perms2 h.nodes)
  pure (scores t e)

/-- graph_evaluation.py L52-65: `directed_edge_evaluation`. -/
def directedEdgeEvaluation (g h : Graph α) : Except Err Scores := do
  missMatch g h
  let t ← ask g.isFullyDirected (perms2 g.nodes)
  let e ← ask h.isFullyDirected (perms2 h.nodes)
  pure (scores t e)

/-- graph_evaluation.py L75-76: the summand of `shd`. Edges are named tuples, compared by value. -/
def shdTerm (g h : Graph α) (p : α × α) : Except Err Nat := do
  let a ← g.getEdge p.1 p.2
  let b ← h.getEdge p.1 p.2
  pure (if a = b then 0 else 1)

/-- graph_evaluation.py L68-76: `shd`. -/
def shd (g h : Graph α) : Except Err Nat := do
  missMatch g h
  (pairs g.nodes).foldlM (fun n p => do
    let d ← shdTerm g h p
    pure (n + d)) 0

end Graph
end Cdmir
