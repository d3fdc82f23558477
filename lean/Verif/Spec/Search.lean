import Verif.Model.Adjacency
import Verif.Spec.PDAG
import Verif.Spec.Reach

/-! Specification vocabulary for the searches: what was asked, what was answered, and what follows from the answers. -/

namespace Cdmir
namespace Spec
variable {α σ P : Type}

/-- One call of the independence test and the p-value it returned. -/
structure Asked (α P : Type) where
  u : α
  v : α
  z : List α
  p : P

/-- `tr` is a sequence of calls that takes the test object from state `s` to state `s'` with the recorded answers. -/
def Answers (test : CITest α σ P) : σ → List (Asked α P) → σ → Prop
  | s, [], s' => s = s'
  | s, q :: t, s' => ∃ s1, test q.u q.v q.z s = .ok (q.p, s1) ∧ Answers test s1 t s'

/-- `tr` contains a call for `u`, `v`, `z` answered by a p-value of at least `alpha`. -/
def Accepted [LE P] (alpha : P) (tr : List (Asked α P)) (u v : α) (z : List α) : Prop :=
  ∃ p, alpha ≤ p ∧ (⟨u, v, z, p⟩ : Asked α P) ∈ tr

/-- A sensible question about members of `N`: two distinct ones, given distinct others. -/
def Legal (N : List α) (u v : α) (z : List α) : Prop :=
  u ∈ N ∧ v ∈ N ∧ u ≠ v ∧ (∀ w ∈ z, w ∈ N) ∧ z.Nodup ∧ u ∉ z ∧ v ∉ z

/-- The test, started in state `s`, raised `e` on a sensible question after answering sensible questions. -/
def Raised (test : CITest α σ P) (N : List α) (s : σ) (e : Err) : Prop :=
  ∃ tr s1 u v z, Answers test s tr s1 ∧ (∀ q ∈ tr, Legal N q.u q.v q.z) ∧ Legal N u v z ∧ test u v z s1 = .error e

/-- The pair `u`, `v` of distinct members of `N` for which the evidence `A` names no separating set. -/
def KeepOf (N : List α) (A : α → α → List α → Prop) (u v : α) : Prop :=
  u ∈ N ∧ v ∈ N ∧ u ≠ v ∧ ∀ z, ¬ A u v z ∧ ¬ A v u z

/-- The table `sep` stores under each ordered pair of distinct members of `N` the union of the sets named by `A` for the
pair in either order. -/
def SepOf [DecidableEq α] (N : List α) (A : α → α → List α → Prop) (sep : Sep α) : Prop :=
  ∀ a ∈ N, ∀ b ∈ N, a ≠ b → ∃ s, dget sep (a, b) = some s ∧ ∀ w, w ∈ s ↔ ∃ z, (A a b z ∨ A b a z) ∧ w ∈ z

/-- The calls `lev` made at level `k` of the stable search when the adjacency at the start of the level is `K`: each asks
about an adjacent ordered pair `u`, `v` with `k` distinct other neighbours of `u`, and every such question is asked (up to
the order in which the conditioning nodes are listed). -/
def LevelAsks (K : α → α → Prop) (k : Nat) (lev : List (Asked α P)) : Prop :=
  (∀ q ∈ lev, K q.u q.v ∧ q.z.Nodup ∧ q.z.length = k ∧ ∀ w ∈ q.z, K q.u w ∧ w ≠ q.v) ∧
  ∀ u v z, K u v → z.Nodup → z.length = k → (∀ w ∈ z, K u w ∧ w ≠ v) → ∃ q ∈ lev, q.u = u ∧ q.v = v ∧ q.z.Perm z

/-- `tr` consists of the calls of levels `0, ..., k - 1`, where the adjacency at the start of a level is what the answers
of the levels before have left of the complete graph on `N`. -/
inductive Levels [LE P] (alpha : P) (N : List α) : Nat → List (Asked α P) → Prop
  | zero : Levels alpha N 0 []
  | succ {k : Nat} {tr lev : List (Asked α P)} (h : Levels alpha N k tr)
      (hl : LevelAsks (KeepOf N (Accepted alpha tr)) k lev) : Levels alpha N (k + 1) (tr ++ lev)

/-- `u -> w <- v` with `u` and `v` not adjacent. -/
def VStruct (D : α → α → Prop) (u w v : α) : Prop := u ≠ v ∧ D u w ∧ D v w ∧ ¬ Adj D u v

/-- A perfect oracle for the DAG `D`: in every state satisfying `I` it answers each sensible question, a p-value of at
least `alpha` meaning d-separated, and the new state satisfies `I` again. -/
def Perfect [LE P] (D : α → α → Prop) (N : List α) (alpha : P) (test : CITest α σ P) (I : σ → Prop) : Prop :=
  ∀ u v z, Legal N u v z → ∀ s, I s →
    ∃ p s', test u v z s = .ok (p, s') ∧ I s' ∧ (alpha ≤ p ↔ DSep D u v (fun w => w ∈ z))

end Spec
end Cdmir
