import Verif.Model.Graph
import Mathlib.Analysis.SpecialFunctions.Trigonometric.Basic
import Mathlib.Analysis.Real.Sqrt

/-! Model of cdmir/visual/plot_graph.py and cdmir/visual/graph_layout.py: the list of the things that are added to the axes. Real
numbers; colours other than the fill of a node, fonts and line widths are left out. -/

namespace Cdmir.Plot

/-- A point of the figure, whose side has length 1. -/
abbrev Pt := ℝ × ℝ

/-- What is drawn: plot_graph.py L64-66, L69-71, L98 (circles, grey or white), L100 (text), L83 (an arrow with or without heads at its two ends).
`broken` stands for an edge whose coordinates are NaN, because two nodes are at the same place (L54). -/
inductive Shape where
  | circle (c : Pt) (r : ℝ) (grey : Bool)
  | text (p : Pt) (s : String)
  | arrow (a b : Pt) (headA headB : Bool)
  | broken

/-- How Python sees the nodes: `str(node)`, and the string that a node is, if it is one. -/
structure Names (α : Type) where
  text : α → String
  asStr : α → Option String

/-- plot_graph.py L88-101: `plt_node`. -/
def pltNode (pos : Pt) (r : ℝ) (name : String) (grey : Bool) : List Shape := [.circle pos r grey, .text pos name]

/-- plot_graph.py L41-85: `plt_edge`. -/
noncomputable def pltEdge (posU posV : Pt) (markU markV : Mark) (nodeRadius circleRadius : ℝ) : Except Err (List Shape) :=
  if 0 < circleRadius then
    let dx := posV.1 - posU.1
    let dy := posV.2 - posU.2
    let dis := Real.sqrt (dx ^ 2 + dy ^ 2)
    if dis = 0 then pure [.broken]
    else
      let offX := nodeRadius * dx / dis
      let offY := nodeRadius * dy / dis
      let u : Pt := (posU.1 + offX, posU.2 + offY)
      let v : Pt := (posV.1 - offX, posV.2 - offY)
      let offX' := 2 * circleRadius * dx / dis
      let offY' := 2 * circleRadius * dy / dis
      let cu := if markU = .circle then [Shape.circle (u.1 + offX' / 2, u.2 + offY' / 2) circleRadius false] else []
      let u' : Pt := if markU = .circle then (u.1 + offX', u.2 + offY') else u
      let cv := if markV = .circle then [Shape.circle (v.1 - offX' / 2, v.2 - offY' / 2) circleRadius false] else []
      let v' : Pt := if markV = .circle then (v.1 - offX', v.2 - offY') else v
      let heads : Bool × Bool :=
        if markU = .arrow then (if markV = .arrow then (true, true) else (true, false))
        else if markV = .arrow then (false, true) else (false, false)
      pure (cu ++ cv ++ [.arrow u' v' heads.1 heads.2])
  else throw .assertion

variable {α : Type} [DecidableEq α]

/-- graph_layout.py L15: the angle of place `i` of `n`. -/
noncomputable def angle (n i : Nat) : ℝ := Real.pi / 2 - 2 * Real.pi * i / n

/-- graph_layout.py L8-17: `circular_layout`. -/
noncomputable def circularLayout (nm : Names α) (scale : ℝ) (sortNode : Bool) (g : Graph α) : Dict String Pt :=
  let names := g.nodes.map nm.text
  let names := if sortNode then names.mergeSort (fun a b => decide (a ≤ b)) else names
  names.zipIdx.foldl (fun d e => dset d e.1 (scale * Real.cos (angle names.length e.2), scale * Real.sin (angle names.length e.2))) []

/-- plot_graph.py L25, L32-33: the middle of the figure is added. -/
noncomputable def toFigure (p : Pt) : Pt := (p.1 + 1 / 2, p.2 + 1 / 2)

/-- plot_graph.py L18-26: the loop over the nodes. -/
noncomputable def drawNodes (nm : Names α) (pos : Dict String Pt) (latent : List String) (r : ℝ) : List α → Except Err (List Shape)
  | [] => pure []
  | u :: l => do
    let p ← dgetE pos (nm.text u)
    pure (pltNode (toFigure p) r (nm.text u) (decide (nm.text u ∉ latent)) ++ (← drawNodes nm pos latent r l))

/-- plot_graph.py L32-33: `pos[node_u]`: the keys are strings, so only a string finds its place. -/
def place (nm : Names α) (pos : Dict String Pt) (u : α) : Except Err Pt :=
  match nm.asStr u with
  | some s => dgetE pos s
  | none => throw .key

/-- plot_graph.py L29-36: the loop over the edges. -/
noncomputable def drawEdges (nm : Names α) (pos : Dict String Pt) (r c : ℝ) : List (Edge α) → Except Err (List Shape)
  | [] => pure []
  | e :: l => do
    let pu ← place nm pos e.u
    let pv ← place nm pos e.v
    let s ← pltEdge (toFigure pu) (toFigure pv) e.mu e.mv r c
    pure (s ++ (← drawEdges nm pos r c l))

/-- plot_graph.py L8-38: `plot_graph`. -/
noncomputable def plotGraph (nm : Names α) (layout : Graph α → Dict String Pt) (latent : List String) (nodeRadius ratio : ℝ) (g : Graph α) :
    Except Err (List Shape) := do
  let pos := layout g
  let ns ← drawNodes nm pos latent nodeRadius g.nodes
  let es ← g.edges
  let ls ← drawEdges nm pos nodeRadius (nodeRadius * ratio) es
  pure (ns ++ ls)

end Cdmir.Plot
