import Verif.Model.Pdag2dag
import Verif.Model.Dag2Cpdag
import Mathlib.Data.Rat.Defs
import Mathlib.Algebra.Order.Ring.Rat
import Mathlib.Algebra.Field.Rat
import Mathlib.Algebra.Order.Field.Rat

/-! Model of cdmir/discovery/score_based/greedy_equivalence_search.py (GES below). As in `Model/Pdag2dag.lean`, positions of
nodes (the numpy index arrays) are represented by the nodes themselves: node lists have no duplicates and every index array
produced by `np.where`, `np.intersect1d` and `np.union1d` is sorted, so it is a sublist of the node list. Scores are elements of
an ordered field instead of floats. The score function is a parameter. `fuel` bounds the `while` loops, as in `pdag2dag`. Not
modelled: `kernel`, `dist2`, `pdinv` (L15-24, L330-373). -/

namespace Cdmir
namespace GES
variable {α : Type} [DecidableEq α] {K : Type} [Field K] [LinearOrder K]

/-- GES L27-41: `Combinatorial`. -/
def combinatorial (t0 : List α) : List (List α) :=
  if t0.length = 0 then [[]]
  else if t0.length = 1 then [[], t0]
  else (List.range (t0.length + 1)).flatMap (fun n => combinations t0 n)

/-- GES L65, L101, L178, L251, L264, L442, L494: positions adjacent to `i`. -/
def adjacentTo (g : Graph α) (i : α) : Except Err (List α) := filterE (fun v => g.isConnected i v) g.nodes

/-- GES L64-66, L100-102, L177-179, L250-252, L263-265, L493-495: neighbours of `j` that are adjacent to `i`. -/
def naSet (g : Graph α) (i j : α) : Except Err (List α) := do
  let tj ← tailBoth g j
  let ti ← adjacentTo g i
  pure (tj.filter (fun v => v ∈ ti))

/-- GES L180, L440: positions `p` with an arrow at the end of `j`. -/
def arrowsInto (g : Graph α) (j : α) : Except Err (List α) := filterE (fun p => g.isArrow p j) g.nodes

/-- `np.union1d` of two index arrays (GES L67, L106, L182-184, L266). -/
def union1d (g : Graph α) (a b : List α) : List α := g.nodes.filter (fun v => v ∈ a ∨ v ∈ b)

/-- GES L76-79: the integer matrix `Gs`; rows and columns are the nodes. Later edges overwrite. -/
def markMatrix (es : List (Edge α)) : α → α → Int :=
  es.foldl (fun m e => fun a b =>
    if a = e.v ∧ b = e.u then e.mv.toInt else if a = e.u ∧ b = e.v then e.mu.toInt else m a b) (fun _ _ => 0)

/-- GES L71-93: `check_clique`. L86-88: an entry becomes -1 if it or its mirror image is 1. L89: compare with
`eye - ones` position by position. -/
def checkClique (g : Graph α) (subnode : List α) : Except Err Bool := do
  let gs := markMatrix (← g.edges)
  let gs' : α → α → Int := fun a b => if gs a b = 1 ∨ gs b a = 1 then -1 else gs a b
  if subnode.length = 0 then pure true
  else pure (subnode.zipIdx.all (fun p => subnode.zipIdx.all (fun q => gs' p.1 q.1 = if p.2 = q.2 then 0 else -1)))

/-- GES L58-68: `Insert_validity_test1`. -/
def insertValid1 (g : Graph α) (i j : α) (t : List α) : Except Err Bool := do
  let na ← naSet g i j
  checkClique g (union1d g na t)

/-- GES L140-141: `child`. -/
def semiChildren (g : Graph α) (x : α) : Except Err (List α) := do
  let a ← filterE (fun o => g.isArrow x o) g.nodes
  let b ← tailBoth g x
  pure (a ++ b)

/-- GES L122-158: the `while` loop of `Insert_vC2_new`. A stack entry `{'value': v, 'pa': ...}` is the pair of `v` and the
values along the `pa` links, nearest first. -/
def vC2Loop (g : Graph α) (target : α) (nat : List α) : Nat → List (α × List α) → Except Err Bool
  | _, [] => pure true
  | 0, _ :: _ => throw .fuel
  | n + 1, (x, anc) :: st =>
    if x = target then
      if anc.any (fun y => y ∈ nat) then vC2Loop g target nat n st else pure false
    else do
      let child ← semiChildren g x
      vC2Loop g target nat n ((child.filter (fun c => c ∉ anc)).foldl (fun st c => (c, x :: anc) :: st) st)

/-- GES L113-158: `Insert_vC2_new`. -/
def insertVC2 (fuel : Nat) (g : Graph α) (j i : α) (nat : List α) : Except Err Bool := vC2Loop g i nat fuel [(j, [])]

/-- GES L96-110: `Insert_validity_test2`. -/
def insertValid2 (fuel : Nat) (g : Graph α) (i j : α) (t : List α) : Except Err Bool := do
  let na ← naSet g i j
  insertVC2 fuel g j i (union1d g na t)

/-- GES L161-172: `find_subset_include`; an entry is `True` for 1. -/
def findSubsetInclude (s0 : List α) (sub : List (List α)) : List Bool :=
  if s0.length = 0 ∨ sub.length = 0 then sub.map (fun _ => true)
  else sub.map (fun s =>
    let tmp := (pySet s0).filter (fun x => x ∈ pySet s)
    if tmp.length ≠ 0 then (∀ x ∈ pySet s0, x ∈ tmp) ∧ (∀ x ∈ tmp, x ∈ pySet s0) else false)

/-- One entry of `record_local_score[j]` (GES L211-223): the list of parents, with `none` for -1, and the score. -/
abbrev Entry (α K : Type) := List (Option α) × K

/-- `record_local_score` (GES L428), by variable. -/
abbrev Record (α K : Type) := α → List (Entry α K)

/-- `not np.setxor1d(a, b).size` (GES L193, L197, L202) and `set(a) == set(b)` (GES L279, L283, L287). -/
def sameSet {β : Type} [DecidableEq β] (a b : List β) : Bool := a.all (fun x => x ∈ b) && b.all (fun x => x ∈ a)

/-- GES L192-207, L278-292: the search through the record; `m1` and `m2` are the two tests. -/
def recordLoop (m1 m2 : List (Option α) → Bool) : List (Entry α K) → Option K × Option K → Option K × Option K
  | [], s => s
  | (k, v) :: t, (s1, s2) =>
    let s1 := if m1 k then some v else s1
    let s2 := if m2 k then some v else s2
    if s1.isSome ∧ s2.isSome then (s1, s2) else recordLoop m1 m2 t (s1, s2)

/-- `record_local_score[j].append(e)` (GES L213, L221-223, L298, L305-307). -/
def Record.push (r : Record α K) (j : α) (e : Entry α K) : Record α K := fun x => if x = j then r j ++ [e] else r x

/-- GES L188-225 and L274-309: scores of `score1` for the parents `p1`, `score2` for `p2`, through the record. `l1`, `l2` are
the lists handed to the score function. -/
def recordedChange (score : α → List α → K) (j : α) (p1 l1 p2 l2 : List α) (r : Record α K) : K × Record α K :=
  let m1 := fun k => sameSet k (p1.map some)
  let m2 := fun k => sameSet k (p2.map some) || (sameSet k [none] && p2.length = 0)
  let (s1, s2) := recordLoop m1 m2 (r j) (none, none)
  let (score1, r) := match s1 with
    | some v => (v, r)
    | none => (score j l1, r.push j (l1.map some, score j l1))
  let (score2, r) := match s2 with
    | some v => (v, r)
    | none => (score j l2, r.push j (if l2.length ≠ 0 then l2.map some else [none], score j l2))
  (score1 - score2, r)

/-- GES L175-227: `Insert_changed_score`; `desc` is `(i, j, T)` itself. -/
def insertChange (score : α → List α → K) (g : Graph α) (i j : α) (t : List α) (r : Record α K) : Except Err (K × Record α K) := do
  let na ← naSet g i j
  let paj ← arrowsInto g j
  let tmp2 := union1d g (union1d g na t) paj
  let tmp3 := union1d g tmp2 [i]
  pure (recordedChange score j tmp3 tmp3 tmp2 tmp2 r)

/-- `if G.get_edge(u, v) is not None: G.remove_edge(u, v)` (GES L237-239, L317-319, L322-327). -/
def dropIf (g : Graph α) (u v : α) : Except Err (Graph α) := do
  if (← g.getEdge u v).isSome then g.removeEdge u v else pure g

/-- GES L230-241: `Insert`. -/
def insertOp (g : Graph α) (i j : α) (t : List α) : Except Err (Graph α) := do
  let g ← g.addEdge ⟨i, j, .tail, .arrow⟩ true
  t.foldlM (fun g k => do
    let g ← dropIf g k j
    g.addEdge ⟨k, j, .tail, .arrow⟩ true) g

/-- GES L244-258: `Delete_validity_test`; `setOrder` is the order in which Python lists a set. -/
def deleteValid (setOrder : List α → List α) (g : Graph α) (i j : α) (h : List α) : Except Err Bool := do
  let na ← naSet g i j
  checkClique g (setOrder (na.filter (fun v => v ∉ h)))

/-- GES L261-311: `Delete_changed_score`. -/
def deleteChange (setOrder : List α → List α) (score : α → List α → K) (g : Graph α) (i j : α) (h : List α) (r : Record α K) :
    Except Err (K × Record α K) := do
  let na ← naSet g i j
  let paj := union1d g (← arrowsInto g j) [i]
  let tmp1 := na.filter (fun v => v ∉ h)
  let tmp2 := pyUnion tmp1 paj
  let tmp3 := tmp2.filter (fun v => v ≠ i)
  pure (recordedChange score j tmp3 (setOrder tmp3) tmp2 (setOrder tmp2) r)

/-- GES L314-327: `Delete`. -/
def deleteOp (g : Graph α) (i j : α) (h : List α) : Except Err (Graph α) := do
  let g ← dropIf g i j
  h.foldlM (fun g k => do
    let g ← dropIf g j k
    let g ← dropIf g i k
    let g ← g.addEdge ⟨j, k, .tail, .arrow⟩ true
    g.addEdge ⟨i, k, .tail, .arrow⟩ true) g

/-- GES L44-55: `Score_G`. The parents are handed on as node names while the score functions expect positions; in `fit` the
graph has no edges, so the lists are empty. -/
def scoreG (score : α → List α → K) (g : Graph α) : Except Err K :=
  g.nodes.foldlM (fun s u => do
    let pa ← filterE (fun v => g.isArrow v u) (← g.getNeighbours u)
    pure (s + score u pa)) 0

/-- GES L436-437, L488-489: `max_chscore`, `max_ac` and the record while a pass runs. -/
structure Best (α K : Type) where
  change : K
  op : Option (α × α × List α)
  record : Record α K

/-- GES L465-467, L514-516: keep the operator if its change is greater. -/
def Best.offer (b : Best α K) (i j : α) (t : List α) (c : K × Record α K) : Best α K :=
  if c.1 > b.change then ⟨c.1, some (i, j, t), c.2⟩ else { b with record := c.2 }

/-- `S[np.where(Idx == 1)] = x` (GES L462, L470, L507). -/
def mark (idx : List Bool) (s : List Nat) (x : Nat) : List Nat := List.zipWith (fun b y => if b then x else y) idx s

/-- GES L453-470: body of the loop over the subsets in the forward pass. -/
def forwardSub (fuel : Nat) (score : α → List α → K) (g : Graph α) (i j : α) (sub : List (List α))
    (s : List Nat × Best α K) (k : Nat) : Except Err (List Nat × Best α K) := do
  if s.1.getD k 0 < 2 then
    let t := sub.getD k []
    if ← insertValid1 g i j t then
      let v2 ← if s.1.getD k 0 = 0 then insertValid2 fuel g i j t else pure true
      if v2 then
        let c ← insertChange score g i j t s.2.record
        pure (mark (findSubsetInclude t sub) s.1 1, s.2.offer i j t c)
      else pure s
    else pure (mark (findSubsetInclude t sub) s.1 2, s.2)
  else pure s

/-- GES L440-470: body of the loops over `i` and `j` in the forward pass. -/
def forwardPair (fuel : Nat) (maxP : ℚ) (score : α → List α → K) (g : Graph α) (b : Best α K) (p : α × α) :
    Except Err (Best α K) := do
  let conn ← g.isConnected p.1 p.2
  if !conn ∧ p.1 ≠ p.2 then
    if ((← arrowsInto g p.2).length : ℚ) ≤ maxP then
      let tj ← tailBoth g p.2
      let ti ← adjacentTo g p.1
      let sub := combinatorial (tj.filter (fun v => v ∉ ti))
      let r ← (List.range sub.length).foldlM (forwardSub fuel score g p.1 p.2 sub) (List.replicate sub.length 0, b)
      pure r.2
    else pure b
  else pure b

/-- GES L438-439, L490-491: the pairs of positions in loop order. -/
def allPairs (l : List α) : List (α × α) := l.flatMap (fun i => l.map (fun j => (i, j)))

/-- GES L436-470: one pass of the forward loop. -/
def forwardPass (fuel : Nat) (maxP : ℚ) (score : α → List α → K) (g : Graph α) (r : Record α K) : Except Err (Best α K) :=
  (allPairs g.nodes).foldlM (forwardPair fuel maxP score g) ⟨-10000000, none, r⟩

/-- GES L502-516: body of the loop over the subsets in the backward pass. -/
def backwardSub (setOrder : List α → List α) (score : α → List α → K) (g : Graph α) (i j : α) (sub : List (List α))
    (s : List Nat × Best α K) (k : Nat) : Except Err (List Nat × Best α K) := do
  let h := sub.getD k []
  let (v, flags) ←
    if s.1.getD k 1 = 1 then do
      let v ← deleteValid setOrder g i j h
      pure (v, if v then mark (findSubsetInclude h sub) s.1 2 else s.1)
    else pure (true, s.1)
  if v then
    let c ← deleteChange setOrder score g i j h s.2.record
    pure (flags, s.2.offer i j h c)
  else pure (flags, s.2)

/-- GES L492-516: body of the loops over `i` and `j` in the backward pass. -/
def backwardPair (setOrder : List α → List α) (score : α → List α → K) (g : Graph α) (b : Best α K) (p : α × α) :
    Except Err (Best α K) := do
  let u ← if ← g.isTail p.2 p.1 then g.isTail p.1 p.2 else pure false
  let go ← if u then pure true else g.isArrow p.1 p.2
  if go then
    let sub := combinatorial (← naSet g p.1 p.2)
    let r ← (List.range sub.length).foldlM (backwardSub setOrder score g p.1 p.2 sub) (List.replicate sub.length 1, b)
    pure r.2
  else pure b

/-- GES L488-516: one pass of the backward loop. -/
def backwardPass (setOrder : List α → List α) (score : α → List α → K) (g : Graph α) (r : Record α K) : Except Err (Best α K) :=
  (allPairs g.nodes).foldlM (backwardPair setOrder score g) ⟨-10000000, none, r⟩

/-- GES L477-478, L523-524: `G = dag2cpdag(pdag2dag(G))`. -/
def complete (fuel : Nat) (setOrder : List α → List α) (g : Graph α) : Except Err (Graph α) := do
  dag2cpdag setOrder (← pdag2dag fuel g)

/-- The variables of `fit` that live across rounds: `G`, `score`, `record_local_score`. -/
structure State (α K : Type) where
  graph : Graph α
  score : K
  record : Record α K

/-- GES L433-481, L486-528: the two `while True` loops have the same shape: run a pass, stop if it selects nothing or the
change is not positive, otherwise apply the operator, complete the graph and go on. -/
def greedyLoop (pass : Graph α → Record α K → Except Err (Best α K)) (apply : Graph α → α → α → List α → Except Err (Graph α))
    (compl : Graph α → Except Err (Graph α)) : Nat → State α K → Except Err (State α K)
  | 0, _ => throw .fuel
  | n + 1, s => do
    let b ← pass s.graph s.record
    match b.op with
    | none => pure { s with record := b.record }
    | some (i, j, t) =>
      let scoreNew := s.score + b.change
      if scoreNew - s.score ≤ 0 then pure { s with record := b.record }
      else
        let g ← apply s.graph i j t
        let g ← compl g
        greedyLoop pass apply compl n ⟨g, scoreNew, b.record⟩

/-- GES L404-531: `GES.fit`, returning the causal graph and the score. -/
def fit (fuel : Nat) (setOrder : List α → List α) (maxP : ℚ) (score : α → List α → K) (names : List α) :
    Except Err (Graph α × K) := do
  let g ← Graph.init .pdag names
  let s ← scoreG score g
  let g ← complete fuel setOrder g
  let a ← greedyLoop (forwardPass fuel maxP score) insertOp (complete fuel setOrder) fuel ⟨g, s, fun _ => []⟩
  let b ← greedyLoop (backwardPass setOrder score) deleteOp (complete fuel setOrder) fuel a
  pure (b.graph, b.score)

end GES
end Cdmir
