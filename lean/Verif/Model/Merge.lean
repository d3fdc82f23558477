import Verif.Model.Py
import Mathlib.Data.List.Sort

/-! Model of cdmir/discovery/funtional_based/LearningHierarchicalStructure/Overlap_Merge.py: merging overlapping clusters. -/

namespace Cdmir.Merge

section
variable {α : Type} [LinearOrder α]

/-- Overlap_Merge.py L14-19: the pairs of indices of overlapping sets, `s` being the clusters as sets. -/
def overlapEdges (s : List (List α)) : List (Nat × Nat) :=
  (pairs (List.range s.length)).filter (fun p => !((s.getD p.1 []).filter (fun x => x ∈ s.getD p.2 [])).isEmpty)

/-- Overlap_Merge.py L58, L59: `result.setdefault(k, set()).add(x)`. -/
def addTo (d : Dict Nat (List Nat)) (k x : Nat) : Dict Nat (List Nat) :=
  match dget d k with
  | none => dset d k [x]
  | some s => dset d k (if x ∈ s then s else s ++ [x])

/-- Overlap_Merge.py L55-60: `graph(edge_list)`. -/
def graphOf (edges : List (Nat × Nat)) : Dict Nat (List Nat) :=
  edges.foldl (fun d e => addTo (addTo d e.1 e.2) e.2 e.1) []

/-- Overlap_Merge.py L38-43: the `while` loop of `bfs`; the first argument bounds the number of passes, `setOrder` is the order
in which the set `graph[vertex] - visited` is read. -/
def bfsLoop (setOrder : List Nat → List Nat) (d : Dict Nat (List Nat)) :
    Nat → List Nat → List Nat → Except Err (List Nat)
  | _, visited, [] => .ok visited
  | 0, _, _ :: _ => .error .fuel
  | fuel + 1, visited, v :: queue =>
    if v ∈ visited then bfsLoop setOrder d fuel visited queue
    else do
      let ns ← dgetE d v
      bfsLoop setOrder d fuel (visited ++ [v]) (queue ++ setOrder (ns.filter (fun x => x ∉ visited ++ [v])))

/-- Overlap_Merge.py L36-43: `bfs(graph, start)`. -/
def bfs (setOrder : List Nat → List Nat) (d : Dict Nat (List Nat)) (start : Nat) : Except Err (List Nat) :=
  bfsLoop setOrder d (1 + (d.map (fun e => e.2.length)).sum) [] [start]

/-- Overlap_Merge.py L46-52: `connected_components(G)`, all yielded sets in order. -/
def connectedComponents (setOrder : List Nat → List Nat) (d : Dict Nat (List Nat)) : Except Err (List (List Nat)) := do
  let r ← (dkeys d).foldlM (fun (st : List Nat × List (List Nat)) v =>
    if v ∈ st.1 then pure st
    else do
      let c ← bfs setOrder d v
      pure (pyUnion st.1 c, st.2 ++ [c])) ([], [])
  pure r.2

/-- Python `sorted`. -/
def sorted (l : List α) : List α := l.insertionSort (· ≤ ·)

/-- Overlap_Merge.py L11-33: `merge_list(L2)`. -/
def mergeList (setOrder : List Nat → List Nat) (l : List (List α)) : Except Err (List (List α)) := do
  let s := l.map pySet
  let comps ← connectedComponents setOrder (graphOf (overlapEdges s))
  let (result, unassigned) := comps.foldl (fun (st : List (List α) × List Nat) c =>
    (st.1 ++ [sorted (pySet (c.flatMap (fun i => s.getD i [])))], st.2.filter (fun i => i ∉ c)))
    ([], List.range s.length)
  pure (result ++ unassigned.map (fun i => sorted (s.getD i [])))

end
end Cdmir.Merge
