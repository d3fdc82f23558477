import Verif.Spec.PDAG
import Verif.Spec.Reach
import Verif.Spec.Class
import Verif.Model.GES
import Mathlib.Algebra.Order.Ring.Rat

/-! Specification vocabulary for greedy equivalence search: semi-directed paths, validity of the two operators (Chickering,
"Optimal structure identification with greedy search", Definitions 12 and 13, Theorems 15 and 17), score changes. -/

namespace Cdmir
namespace Spec
variable {α : Type} [DecidableEq α] {K : Type} [Field K] [LinearOrder K]

/-- A path from `j` to `i` along undirected or forward-directed edges. -/
def SemiPath (g : Graph α) (p : List α) (j i : α) : Prop :=
  p.Nodup ∧ p.head? = some j ∧ p.getLast? = some i ∧ ∀ a b, [a, b] <:+: p → Dir g a b ∨ Und g a b

/-- `v` is a neighbour of `j` (undirected edge) that is adjacent to `i`. -/
def NA (g : Graph α) (i j v : α) : Prop := Und g v j ∧ Conn g i v

/-- Any two different nodes satisfying `P` are adjacent. -/
def Clique (g : Graph α) (P : α → Prop) : Prop := ∀ a b, P a → P b → a ≠ b → Conn g a b

/-- `Insert(i, j, T)` is valid and `j` has at most `maxP` parents: `i`, `j` different and not adjacent, `T` neighbours of `j`
not adjacent to `i`, `NA ∪ T` a clique that meets every semi-directed path from `j` to `i`. -/
structure ValidInsert (g : Graph α) (maxP : ℚ) (i j : α) (T : List α) : Prop where
  memi : i ∈ g.nodes
  memj : j ∈ g.nodes
  ne : i ≠ j
  apart : ¬ Conn g i j
  parents : ∀ l : List α, l.Nodup → (∀ p ∈ l, Dir g p j) → (l.length : ℚ) ≤ maxP
  cand : ∀ t ∈ T, Und g t j ∧ ¬ Conn g i t
  clique : Clique g (fun v => NA g i j v ∨ v ∈ T)
  block : ∀ p, SemiPath g p j i → ∃ x ∈ p, x ≠ i ∧ (NA g i j x ∨ x ∈ T)

/-- `Delete(i, j, H)` is valid: `i -> j` or `i - j`, `H` neighbours of `j` adjacent to `i`, `NA \ H` a clique. -/
structure ValidDelete (g : Graph α) (i j : α) (H : List α) : Prop where
  edge : Dir g i j ∨ Und g i j
  cand : ∀ h ∈ H, NA g i j h
  clique : Clique g (fun v => NA g i j v ∧ v ∉ H)

/-- The score depends on the parents as a set. -/
def SetScore (score : α → List α → K) : Prop :=
  ∀ j l l', l.Nodup → l'.Nodup → (∀ x, x ∈ l ↔ x ∈ l') → score j l = score j l'

/-- `c` is the change of score of `Insert(i, j, T)`: the local score of `j` with the parents `NA ∪ T ∪ Pa ∪ {i}` minus that
with the parents `NA ∪ T ∪ Pa`. -/
def InsertChange (score : α → List α → K) (g : Graph α) (i j : α) (T : List α) (c : K) : Prop :=
  ∀ A B : List α, A.Nodup → B.Nodup → (∀ x, x ∈ A ↔ NA g i j x ∨ x ∈ T ∨ Dir g x j) → (∀ x, x ∈ B ↔ x ∈ A ∨ x = i) →
    c = score j B - score j A

/-- `c` is the change of score of `Delete(i, j, H)`: the local score of `j` with the parents `(NA \ H) ∪ Pa` without `i` minus
that with the parents `(NA \ H) ∪ Pa ∪ {i}`. -/
def DeleteChange (score : α → List α → K) (g : Graph α) (i j : α) (H : List α) (c : K) : Prop :=
  ∀ A B : List α, A.Nodup → B.Nodup → (∀ x, x ∈ A ↔ ((NA g i j x ∧ x ∉ H) ∨ Dir g x j) ∧ x ≠ i) →
    (∀ x, x ∈ B ↔ x ∈ A ∨ x = i) → c = score j A - score j B

/-- The forward phase selects `Insert(i, j, T)`: valid, of positive change `c`, and no valid insertion has a greater change. -/
structure BestInsert (maxP : ℚ) (score : α → List α → K) (g : Graph α) (i j : α) (T : List α) (c : K) : Prop where
  valid : ValidInsert g maxP i j T
  change : InsertChange score g i j T c
  pos : 0 < c
  best : ∀ i' j' T' c', ValidInsert g maxP i' j' T' → InsertChange score g i' j' T' c' → c' ≤ c

/-- The backward phase selects `Delete(i, j, H)`. -/
structure BestDelete (score : α → List α → K) (g : Graph α) (i j : α) (H : List α) (c : K) : Prop where
  valid : ValidDelete g i j H
  change : DeleteChange score g i j H c
  pos : 0 < c
  best : ∀ i' j' H' c', ValidDelete g i' j' H' → DeleteChange score g i' j' H' c' → c' ≤ c

/-- One round of the forward phase on graph and score: a best insertion is applied to the graph, the result is extended to a
DAG, the DAG is turned into a PDAG, the change is added to the score. -/
def InsertRound (so : List α → List α) (maxP : ℚ) (score : α → List α → K) (s s' : Graph α × K) : Prop :=
  ∃ i j T c g1 d, BestInsert maxP score s.1 i j T c ∧ GES.insertOp s.1 i j T = .ok g1 ∧ ReachableSimple .digraph d ∧
    d.nodes = s.1.nodes ∧ Extends (Dir d) g1 ∧ dag2cpdag so d = .ok s'.1 ∧ s'.2 = s.2 + c

/-- One round of the backward phase. -/
def DeleteRound (so : List α → List α) (score : α → List α → K) (s s' : Graph α × K) : Prop :=
  ∃ i j H c g1 d, BestDelete score s.1 i j H c ∧ GES.deleteOp s.1 i j H = .ok g1 ∧ ReachableSimple .digraph d ∧
    d.nodes = s.1.nodes ∧ Extends (Dir d) g1 ∧ dag2cpdag so d = .ok s'.1 ∧ s'.2 = s.2 + c

/-- `k` steps of `R`. -/
inductive Rounds {β : Type} (R : β → β → Prop) : Nat → β → β → Prop
  | zero (s : β) : Rounds R 0 s s
  | succ {k : Nat} {s t u : β} : Rounds R k s t → R t u → Rounds R (k + 1) s u

/-- The records that calls of `Insert_changed_score` and `Delete_changed_score` can leave behind, starting from the empty
record: the calls may come in any order and concern different graphs. -/
inductive Filled (score : α → List α → K) : GES.Record α K → Prop
  | empty : Filled score (fun _ => [])
  | ins {r r' : GES.Record α K} {g : Graph α} {i j : α} {T : List α} {c : K} : Filled score r → ReachableSimple .pdag g →
      (∀ u v, Conn g u v → Dir g u v ∨ Dir g v u ∨ Und g u v) → i ∈ g.nodes → j ∈ g.nodes →
      GES.insertChange score g i j T r = .ok (c, r') → Filled score r'
  | del {r r' : GES.Record α K} {g : Graph α} {i j : α} {H : List α} {c : K} {so : List α → List α} : Filled score r →
      ReachableSimple .pdag g → (∀ u v, Conn g u v → Dir g u v ∨ Dir g v u ∨ Und g u v) → (∀ l, (so l).Perm l) →
      i ∈ g.nodes → j ∈ g.nodes → GES.deleteChange so score g i j H r = .ok (c, r') → Filled score r'

/-- In `g` no valid insertion has a positive change. -/
def InsertOptimal (maxP : ℚ) (score : α → List α → K) (g : Graph α) : Prop :=
  ∀ i j T c, ValidInsert g maxP i j T → InsertChange score g i j T c → c ≤ 0

/-- In `g` no valid deletion has a positive change. -/
def DeleteOptimal (score : α → List α → K) (g : Graph α) : Prop :=
  ∀ i j H c, ValidDelete g i j H → DeleteChange score g i j H c → c ≤ 0

/-- A best insertion gives a graph from which `pdag2dag` never returns. -/
def InsertStuck (maxP : ℚ) (score : α → List α → K) (g : Graph α) : Prop :=
  ∃ i j T c g1, BestInsert maxP score g i j T c ∧ GES.insertOp g i j T = .ok g1 ∧ ∀ n, pdag2dag n g1 = .error .fuel

/-- A best deletion gives a graph from which `pdag2dag` never returns. -/
def DeleteStuck (score : α → List α → K) (g : Graph α) : Prop :=
  ∃ i j H c g1, BestDelete score g i j H c ∧ GES.deleteOp g i j H = .ok g1 ∧ ∀ n, pdag2dag n g1 = .error .fuel

/-- The score of the DAG `D` on the nodes `N`: the sum of the local scores with the parents in `D`. -/
def DagScore (score : α → List α → K) (N : List α) (D : α → α → Prop) (s : K) : Prop :=
  ∀ pa : α → List α, (∀ v, (pa v).Nodup ∧ ∀ x, x ∈ pa v ↔ D x v) → s = (N.map (fun v => score v (pa v))).sum

/-- Equivalent DAGs on the nodes `N` have the same score. -/
def ScoreEquiv (score : α → List α → K) (N : List α) : Prop :=
  ∀ D D' : α → α → Prop, (∀ a b, D a b → a ∈ N ∧ b ∈ N) → Acyclic D → InClass D D' → ∀ s s', DagScore score N D s →
    DagScore score N D' s' → s = s'

/-- A score by families: `tbl` lists sets of variables with a gain each; a DAG gets the gain of a set once if one member of the
set has all others among its parents. -/
def famScore (tbl : List (List α × K)) (j : α) (l : List α) : K :=
  (tbl.map (fun e => if j ∈ e.1 ∧ ∀ x ∈ e.1, x = j ∨ x ∈ l then e.2 else 0)).sum

/-- `d` is a DAG that a run of `fit` started at `s0` hands to `dag2cpdag` in one of its rounds. -/
def Visited (so : List α → List α) (maxP : ℚ) (score : α → List α → K) (s0 : Graph α × K) (d : Graph α) : Prop :=
  ∃ s : Graph α × K, ∃ i j T c g1, ReachableSimple .digraph d ∧ d.nodes = s.1.nodes ∧ Extends (Dir d) g1 ∧
    ((Relation.ReflTransGen (InsertRound so maxP score) s0 s ∧ BestInsert maxP score s.1 i j T c ∧
        GES.insertOp s.1 i j T = .ok g1) ∨
     ∃ m, Relation.ReflTransGen (InsertRound so maxP score) s0 m ∧ InsertOptimal maxP score m.1 ∧
        Relation.ReflTransGen (DeleteRound so score) m s ∧ BestDelete score s.1 i j T c ∧ GES.deleteOp s.1 i j T = .ok g1)

end Spec
end Cdmir
