import Verif.Props.GESConsistent
import Verif.Lemmas.GESSim

/-! Property C162 is false without its proviso: a locally consistent score for which GES returns a graph that contradicts the true DAG. -/

namespace Cdmir
open Graph Spec GES

/-- The true DAG. -/
def exTrue : Graph Nat := built .digraph [0, 1, 2, 3, 4, 5]
  [dE 4 0, dE 4 2, dE 4 5, dE 4 1, dE 3 0, dE 0 2, dE 2 5, dE 5 1]
theorem exTrue_reachable : Reachable .digraph exTrue := (built_reachable _ _ _ (by decide) (by decide)).reachable
theorem exTrue_acyclic : Acyclic (Dir exTrue) := acyclic_of_check exTrue_reachable (by decide +kernel)

/-- Gains of sets of variables: the multi-information of a linear Gaussian model over `exTrue`, a thousand samples, rounded, minus three for each
pair. -/
def exInfo : List (List Nat × ℚ) :=
  [([0, 1], 659), ([0, 2], 1940), ([0, 3], 708), ([0, 4], 234), ([0, 5], 869), ([1, 2], 1143), ([1, 3], 85), ([1, 4], 1098), ([1, 5], 2137), ([2, 3],
  385), ([2, 4], 544), ([2, 5], 1330), ([3, 4], -3), ([3, 5], 176), ([4, 5], 631), ([0, 1, 2], -552), ([0, 1, 3], 96), ([0, 1, 4], -165), ([0, 1, 5],
  -653), ([0, 2, 3], -257), ([0, 2, 4], 40), ([0, 2, 5], -846), ([0, 3, 4], 324), ([0, 3, 5], -80), ([0, 4, 5], -218), ([1, 2, 3], 73), ([1, 2, 4],
  -541), ([1, 2, 5], -1133), ([1, 3, 4], 203), ([1, 4, 5], -445), ([2, 3, 4], 424), ([2, 3, 5], -141), ([2, 4, 5], -520), ([3, 4, 5], 192), ([0, 1, 2,
  3], -191), ([0, 1, 2, 4], 56), ([0, 1, 2, 5], 654), ([0, 1, 3, 4], -387), ([0, 1, 3, 5], -83), ([0, 1, 4, 5], 155), ([0, 2, 3, 4], -555), ([0, 2, 3,
  5], 58), ([0, 2, 4, 5], 192), ([0, 3, 4, 5], -291), ([1, 2, 3, 4], -364), ([1, 2, 3, 5], 4), ([1, 2, 4, 5], 528), ([1, 3, 4, 5], -292), ([2, 3, 4,
  5], -230), ([0, 1, 2, 3, 4], 482), ([0, 1, 2, 3, 5], 82), ([0, 1, 2, 4, 5], -157), ([0, 1, 3, 4, 5], 375), ([0, 2, 3, 4, 5], 313), ([1, 2, 3, 4, 5],
  288), ([0, 1, 2, 3, 4, 5], -374)]

theorem exInfo_consistent : LocallyConsistent (famScore exInfo) [0, 1, 2, 3, 4, 5] (Dir exTrue) :=
  locallyConsistent_of_check (by decide) (famScore_set exInfo) exTrue_reachable rfl (by decide +kernel)

/-! The rounds of the run, one at a time (see `Props/GESFalse.lean`). -/

/-- The graph after 0 rounds. -/
def info0 : Graph Nat :=
  ⟨.pdag, [0, 1, 2, 3, 4, 5], [0, 1, 2, 3, 4, 5], [(0, []), (1, []), (2, []), (3, []), (4, []), (5, [])]⟩

/-- The graph after 1 rounds. -/
def info1 : Graph Nat :=
  ⟨.pdag, [0, 1, 2, 3, 4, 5], [0, 1, 2, 3, 4, 5], [(0, []), (1, [(5, .tail)]), (2, []), (3, []), (4, []), (5, [(1, .tail)])]⟩

/-- The graph after 2 rounds. -/
def info2 : Graph Nat :=
  ⟨.pdag, [0, 1, 2, 3, 4, 5], [0, 1, 2, 3, 4, 5], [(0, [(2, .tail)]), (1, [(5, .tail)]), (2, [(0, .tail)]), (3, []), (4, []), (5, [(1, .tail)])]⟩

/-- The graph after 3 rounds. -/
def info3 : Graph Nat :=
  ⟨.pdag, [0, 1, 2, 3, 4, 5], [0, 1, 2, 3, 4, 5], [(0, [(2, .tail)]), (1, [(5, .tail)]), (2, [(0, .tail), (5, .tail)]), (3, []), (4, []), (5, [(1,
  .tail), (2, .tail)])]⟩

/-- The graph after 4 rounds. -/
def info4 : Graph Nat :=
  ⟨.pdag, [0, 1, 2, 3, 4, 5], [0, 1, 2, 3, 4, 5], [(0, [(2, .tail)]), (1, [(4, .tail), (5, .tail)]), (2, [(0, .tail), (5, .tail)]), (3, []), (4, [(1,
  .tail)]), (5, [(1, .tail), (2, .tail)])]⟩

/-- The graph after 5 rounds. -/
def info5 : Graph Nat :=
  ⟨.pdag, [0, 1, 2, 3, 4, 5], [0, 1, 2, 3, 4, 5], [(0, [(2, .tail), (3, .tail)]), (1, [(4, .tail), (5, .tail)]), (2, [(0, .tail), (5, .tail)]), (3,
  [(0, .tail)]), (4, [(1, .tail)]), (5, [(1, .tail), (2, .tail)])]⟩

/-- The graph after 6 rounds. -/
def info6 : Graph Nat :=
  ⟨.pdag, [0, 1, 2, 3, 4, 5], [0, 1, 2, 3, 4, 5], [(0, [(2, .tail), (3, .arrow)]), (1, [(4, .tail), (5, .tail)]), (2, [(0, .tail), (5, .tail)]), (3,
  [(0, .tail), (4, .tail)]), (4, [(1, .tail), (3, .arrow)]), (5, [(1, .tail), (2, .tail)])]⟩

/-- The graph after 7 rounds. -/
def info7 : Graph Nat :=
  ⟨.pdag, [0, 1, 2, 3, 4, 5], [0, 1, 2, 3, 4, 5], [(0, [(2, .tail), (4, .tail), (3, .arrow)]), (1, [(4, .tail), (5, .tail)]), (2, [(5, .tail), (0,
  .arrow)]), (3, [(0, .tail), (4, .tail)]), (4, [(1, .tail), (0, .arrow), (3, .arrow)]), (5, [(1, .tail), (2, .tail)])]⟩

/-- The graph after 8 rounds. -/
def info8 : Graph Nat :=
  ⟨.pdag, [0, 1, 2, 3, 4, 5], [0, 1, 2, 3, 4, 5], [(0, [(2, .tail), (4, .tail), (3, .arrow)]), (1, [(4, .tail), (5, .tail)]), (2, [(5, .tail), (0,
  .arrow)]), (3, [(0, .tail), (4, .tail)]), (4, [(1, .tail), (5, .tail), (0, .arrow), (3, .arrow)]), (5, [(1, .tail), (2, .tail), (4, .tail)])]⟩

/-- The graph after 9 rounds. -/
def info9 : Graph Nat :=
  ⟨.pdag, [0, 1, 2, 3, 4, 5], [0, 1, 2, 3, 4, 5], [(0, [(2, .tail), (3, .tail), (4, .tail)]), (1, [(4, .tail), (5, .tail)]), (2, [(0, .tail), (4,
  .tail), (5, .tail)]), (3, [(0, .tail), (4, .tail)]), (4, [(0, .tail), (1, .tail), (2, .tail), (3, .tail), (5, .tail)]), (5, [(1, .tail), (2, .tail),
  (4, .tail)])]⟩

/-- The graph after 10 rounds. -/
def info10 : Graph Nat :=
  ⟨.pdag, [0, 1, 2, 3, 4, 5], [0, 1, 2, 3, 4, 5], [(0, [(3, .tail), (4, .tail), (2, .arrow)]), (1, [(4, .tail), (5, .tail)]), (2, [(0, .tail), (4,
  .tail), (5, .tail)]), (3, [(0, .arrow)]), (4, [(1, .tail), (5, .tail), (0, .arrow), (2, .arrow)]), (5, [(1, .tail), (4, .tail), (2, .arrow)])]⟩

theorem info_start : start 60 id (famScore exInfo) [0, 1, 2, 3, 4, 5] = .ok (0, info0) := by decide +kernel

theorem info_1 : fwdStage 60 id 4 (famScore exInfo) info0 = .ok (2137, info1) := by decide +kernel

theorem info_2 : fwdStage 60 id 4 (famScore exInfo) info1 = .ok (1940, info2) := by decide +kernel

theorem info_3 : fwdStage 60 id 4 (famScore exInfo) info2 = .ok (1330, info3) := by decide +kernel

theorem info_4 : fwdStage 60 id 4 (famScore exInfo) info3 = .ok (1098, info4) := by decide +kernel

theorem info_5 : fwdStage 60 id 4 (famScore exInfo) info4 = .ok (708, info5) := by decide +kernel

theorem info_6 : fwdStage 60 id 4 (famScore exInfo) info5 = .ok (321, info6) := by decide +kernel

theorem info_7 : fwdStage 60 id 4 (famScore exInfo) info6 = .ok (274, info7) := by decide +kernel

theorem info_8 : fwdStage 60 id 4 (famScore exInfo) info7 = .ok (186, info8) := by decide +kernel

theorem info_9 : fwdStage 60 id 4 (famScore exInfo) info8 = .ok (24, info9) := by decide +kernel

theorem info_fstop : fwdStop 60 4 (famScore exInfo) info9 = .ok true := by decide +kernel

theorem info_10 : bwdStage 60 id (famScore exInfo) info9 = .ok (3, info10) := by decide +kernel

theorem info_bstop : bwdStop id (famScore exInfo) info10 = .ok true := by decide +kernel

theorem info_chain : FwdChain 60 id 4 (famScore exInfo) info0
    [(2137, info1), (1940, info2), (1330, info3), (1098, info4), (708, info5), (321, info6), (274, info7), (186, info8), (24, info9)] :=
  ⟨info_1, info_2, info_3, info_4, info_5, info_6, info_7, info_8, info_9, trivial⟩

theorem exInfo_fit : fit 60 id 4 (famScore exInfo) [0, 1, 2, 3, 4, 5] = .ok (info10, 8021) := by
  have h := fit_of_chain (so := id) (fun l => List.Perm.refl l) (famScore_set exInfo) (by decide) info_start info_chain
    info_fstop (l' := [(3, info10)]) ⟨info_10, trivial⟩ info_bstop (by decide) (by decide)
  refine h.trans ?_
  have : (List.foldl (fun (a : ℚ) (p : ℚ × Graph Nat) => a + p.1) (List.foldl (fun (a : ℚ) (p : ℚ × Graph Nat) => a + p.1) 0
    [(2137, info1), (1940, info2), (1330, info3), (1098, info4), (708, info5), (321, info6), (274, info7), (186, info8), (24, info9)]) [(3, info10)]) = 8021 := by
    norm_num
  exact congrArg (fun s => Except.ok (info10, s)) this

/-- **C162 is false without its proviso.** The score is decomposable, equal on equivalent DAGs and locally consistent with the DAG `R`, and
`max_parents` is the number of variables minus two. `fit` returns a graph with the edge 5 -> 2, which is 2 -> 5 in `R`: it is not the completed PDAG
of `R`, and `R` does not even extend it. -/
theorem c162_false : ∃ (names : List Nat) (score : Nat → List Nat → ℚ) (R : Nat → Nat → Prop) (g : Graph Nat) (s : ℚ), names.Nodup ∧ SetScore score ∧
    ScoreEquiv score names ∧ Acyclic R ∧ (∀ a b, R a b → a ∈ names ∧ b ∈ names) ∧ LocallyConsistent score names R ∧
    (∀ n, 60 ≤ n → fit n id (names.length - 2) score names = .ok (g, s)) ∧ Dir g 5 2 ∧ R 2 5 ∧ ¬ IsCpdag R g := by
  have hse : ScoreEquiv (famScore exInfo) [0, 1, 2, 3, 4, 5] := famScore_equiv (by decide) (by decide)
  have h52 : Dir info10 5 2 := (by decide +kernel : info10.getEdge 5 2 = .ok (some (dE 5 2)))
  have h25 : Dir exTrue 2 5 := (by decide +kernel : exTrue.getEdge 2 5 = .ok (some (dE 2 5)))
  refine ⟨[0, 1, 2, 3, 4, 5], famScore exInfo, Dir exTrue, info10, 8021, by decide, famScore_set exInfo, hse, exTrue_acyclic,
    fun _ _ k => Dir.mem exTrue_reachable.dg.wf k, exInfo_consistent, fun n hn => ?_, h52, h25, fun hc => ?_⟩
  · have e : (([0, 1, 2, 3, 4, 5] : List Nat).length : ℚ) - 2 = 4 := by norm_num
    rw [e]
    exact fit_le hn id 4 _ _ _ exInfo_fit
  · exact exTrue_acyclic.asymm _ _ h25 ((hc.dir 5 2).1 h52 _ (Complete.InClass.self exTrue_acyclic))

end Cdmir
