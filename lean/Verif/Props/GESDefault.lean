import Verif.Props.Five
import Verif.Lemmas.GESSim

/-! Property C162 with the default `max_parents`: with five variables, one of which has four causes, GES returns two edges too many. -/

namespace Cdmir
open Graph Spec GES

/-- Four independent causes of 4. -/
def exStar : Graph Nat := built .digraph [0, 1, 2, 3, 4] [dE 0 4, dE 1 4, dE 2 4, dE 3 4]
theorem exStar_reachable : Reachable .digraph exStar := (built_reachable _ _ _ (by decide) (by decide)).reachable
theorem exStar_acyclic : Acyclic (Dir exStar) := acyclic_of_check exStar_reachable (by decide +kernel)

/-- Gains of sets of variables: the multi-information of a linear Gaussian model over `exStar`, rounded, minus three for each pair. -/
def exStarInfo : List (List Nat × ℚ) :=
  [([0, 1], -3), ([0, 2], -3), ([0, 3], -3), ([0, 4], 86), ([1, 2], -3), ([1, 3], -3), ([1, 4], 34), ([2, 3], -3), ([2, 4], 133), ([3, 4], 104), ([0,
  1, 4], 9), ([0, 2, 4], 43), ([0, 3, 4], 32), ([1, 2, 4], 16), ([1, 3, 4], 12), ([2, 3, 4], 55), ([0, 1, 2, 4], 13), ([0, 1, 3, 4], 9), ([0, 2, 3,
  4], 52), ([1, 2, 3, 4], 16), ([0, 1, 2, 3, 4], 41)]

theorem exStarInfo_consistent : LocallyConsistent (famScore exStarInfo) [0, 1, 2, 3, 4] (Dir exStar) :=
  locallyConsistent_of_check (by decide) (famScore_set exStarInfo) exStar_reachable rfl (by decide +kernel)

/-- The graph after 0 rounds. -/
def star0 : Graph Nat :=
  ⟨.pdag, [0, 1, 2, 3, 4], [0, 1, 2, 3, 4], [(0, []), (1, []), (2, []), (3, []), (4, [])]⟩

/-- The graph after 1 rounds. -/
def star1 : Graph Nat :=
  ⟨.pdag, [0, 1, 2, 3, 4], [0, 1, 2, 3, 4], [(0, []), (1, []), (2, [(4, .tail)]), (3, []), (4, [(2, .tail)])]⟩

/-- The graph after 2 rounds. -/
def star2 : Graph Nat :=
  ⟨.pdag, [0, 1, 2, 3, 4], [0, 1, 2, 3, 4], [(0, []), (1, []), (2, [(4, .arrow)]), (3, [(4, .arrow)]), (4, [(2, .tail), (3, .tail)])]⟩

/-- The graph after 3 rounds. -/
def star3 : Graph Nat :=
  ⟨.pdag, [0, 1, 2, 3, 4], [0, 1, 2, 3, 4], [(0, [(4, .arrow)]), (1, []), (2, [(4, .arrow)]), (3, [(4, .arrow)]), (4, [(0, .tail), (2, .tail), (3,
  .tail)])]⟩

/-- The graph after 4 rounds. -/
def star4 : Graph Nat :=
  ⟨.pdag, [0, 1, 2, 3, 4], [0, 1, 2, 3, 4], [(0, [(4, .arrow)]), (1, [(4, .tail)]), (2, [(4, .arrow)]), (3, [(4, .arrow)]), (4, [(0, .tail), (2,
  .tail), (3, .tail), (1, .arrow)])]⟩

/-- The graph after 5 rounds. -/
def star5 : Graph Nat :=
  ⟨.pdag, [0, 1, 2, 3, 4], [0, 1, 2, 3, 4], [(0, [(4, .arrow)]), (1, [(4, .tail), (2, .tail)]), (2, [(4, .arrow), (1, .arrow)]), (3, [(4, .arrow)]),
  (4, [(0, .tail), (2, .tail), (3, .tail), (1, .arrow)])]⟩

/-- The graph after 6 rounds. -/
def star6 : Graph Nat :=
  ⟨.pdag, [0, 1, 2, 3, 4], [0, 1, 2, 3, 4], [(0, [(4, .arrow)]), (1, [(2, .tail), (3, .tail), (4, .tail)]), (2, [(1, .arrow), (4, .arrow)]), (3, [(1,
  .arrow), (4, .arrow)]), (4, [(0, .tail), (2, .tail), (3, .tail), (1, .arrow)])]⟩

theorem star_start : start 60 id (famScore exStarInfo) [0, 1, 2, 3, 4] = .ok (0, star0) := by decide +kernel

theorem star_1 : fwdStage 60 id (5 / 2) (famScore exStarInfo) star0 = .ok (133, star1) := by decide +kernel

theorem star_2 : fwdStage 60 id (5 / 2) (famScore exStarInfo) star1 = .ok (159, star2) := by decide +kernel

theorem star_3 : fwdStage 60 id (5 / 2) (famScore exStarInfo) star2 = .ok (213, star3) := by decide +kernel

theorem star_4 : fwdStage 60 id (5 / 2) (famScore exStarInfo) star3 = .ok (34, star4) := by decide +kernel

theorem star_5 : fwdStage 60 id (5 / 2) (famScore exStarInfo) star4 = .ok (13, star5) := by decide +kernel

theorem star_6 : fwdStage 60 id (5 / 2) (famScore exStarInfo) star5 = .ok (25, star6) := by decide +kernel

theorem star_fstop : fwdStop 60 (5 / 2) (famScore exStarInfo) star6 = .ok true := by decide +kernel

theorem star_bstop : bwdStop id (famScore exStarInfo) star6 = .ok true := by decide +kernel

theorem exStar_fit : fit 60 id (5 / 2) (famScore exStarInfo) [0, 1, 2, 3, 4] = .ok (star6, 577) := by
  have h := fit_of_chain (so := id) (fun l => List.Perm.refl l) (famScore_set exStarInfo) (by decide) star_start
    (l := [(133, star1), (159, star2), (213, star3), (34, star4), (13, star5), (25, star6)])
    ⟨star_1, star_2, star_3, star_4, star_5, star_6, trivial⟩ star_fstop (l' := []) trivial star_bstop (by decide) (by decide)
  refine h.trans ?_
  have : (List.foldl (fun (a : ℚ) (p : ℚ × Graph Nat) => a + p.1) (List.foldl (fun (a : ℚ) (p : ℚ × Graph Nat) => a + p.1) 0
    [(133, star1), (159, star2), (213, star3), (34, star4), (13, star5), (25, star6)]) []) = 577 := by
    norm_num
  exact congrArg (fun s => Except.ok (star6, s)) this

/-- **C162 with the default `max_parents`.** Five variables, one with four independent causes; the score is locally consistent. The default is half the
number of variables, so no edge into a node with three parents is ever tried. `fit` returns a graph with an edge between two of the causes. -/
theorem c162_default_false : ∃ (names : List Nat) (score : Nat → List Nat → ℚ) (R : Nat → Nat → Prop) (g : Graph Nat) (s : ℚ), names.Nodup ∧
    names.length = 5 ∧ SetScore score ∧ ScoreEquiv score names ∧ Acyclic R ∧ (∀ a b, R a b → a ∈ names ∧ b ∈ names) ∧
    LocallyConsistent score names R ∧ (∀ n, 60 ≤ n → fit n id ((names.length : ℚ) / 2) score names = .ok (g, s)) ∧
    (∃ u v, Dir g u v ∧ ¬ Adj R u v) ∧ ¬ IsCpdag R g := by
  have hc : Dir star6 2 1 := (by decide +kernel : star6.getEdge 2 1 = .ok (some (dE 2 1)))
  have hn : ¬ Adj (Dir exStar) 2 1 := by
    have h1 : exStar.getEdge 2 1 ≠ .ok (some (dE 2 1)) := by decide +kernel
    have h2 : exStar.getEdge 1 2 ≠ .ok (some (dE 1 2)) := by decide +kernel
    exact fun k => k.elim h1 h2
  refine ⟨[0, 1, 2, 3, 4], famScore exStarInfo, Dir exStar, star6, 577, by decide, rfl, famScore_set exStarInfo,
    famScore_equiv (by decide) (by decide), exStar_acyclic, fun _ _ k => Dir.mem exStar_reachable.dg.wf k, exStarInfo_consistent, fun n hn => ?_,
    ⟨2, 1, hc, hn⟩, fun h => ?_⟩
  · have e : (([0, 1, 2, 3, 4] : List Nat).length : ℚ) / 2 = 5 / 2 := by norm_num
    rw [e]
    exact fit_le hn id _ _ _ _ exStar_fit
  · exact hn (Or.inl ((h.dir 2 1).1 hc _ (Complete.InClass.self exStar_acyclic)))

/-- Gains for `exClique5`. -/
def exClique5Info : List (List Nat × ℚ) :=
  [([0, 1], 79), ([0, 2], 9), ([0, 3], 89), ([0, 4], -3), ([1, 2], 147), ([1, 3], 28), ([1, 4], -3), ([2, 3], 266), ([2, 4], -3), ([3, 4], 119), ([0,
  1, 2], 136), ([0, 1, 3], 136), ([0, 2, 3], 9), ([0, 3, 4], 39), ([1, 2, 3], -14), ([1, 3, 4], 12), ([2, 3, 4], 169), ([0, 1, 2, 3], -143), ([0, 1,
  3, 4], 107), ([0, 2, 3, 4], 105), ([1, 2, 3, 4], 4), ([0, 1, 2, 3, 4], -102)]

theorem exClique5Info_consistent : LocallyConsistent (famScore exClique5Info) [0, 1, 2, 3, 4] (Dir exClique5) :=
  locallyConsistent_of_check (by decide) (famScore_set exClique5Info) exClique5_reachable rfl (by decide +kernel)

example := c162_five (names := [0, 1, 2, 3, 4]) (by decide) (by decide) (so := List.reverse) (fun l => List.reverse_perm l)
  (famScore_set exClique5Info) (famScore_equiv (by decide) (by decide)) (maxP := 3) (by norm_num) exClique5_acyclic
  (fun _ _ k => Dir.mem exClique5_reachable.dg.wf k) exClique5Info_consistent

end Cdmir
