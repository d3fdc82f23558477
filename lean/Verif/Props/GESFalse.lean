import Verif.Lemmas.GESSim
import Verif.Lemmas.FamScore
import Verif.Lemmas.GESValid

/-! Property C56 is false without its proviso: two runs of GES, each with a score that is equal on equivalent DAGs. -/

namespace Cdmir
open Graph Spec GES

/-- Gains of sets of six variables. -/
def exWrong : List (List Nat × ℚ) :=
  [([0, 1, 4], -1), ([0, 3, 4], -1), ([1, 4], 5), ([0, 2, 3], 5), ([0, 4, 5], 1), ([0, 5], -1), ([2, 3], 6), ([0, 1], 6),
   ([0, 2], 7), ([0, 3], 5), ([0, 1, 2], 2), ([1, 2], 4), ([0, 4], 8), ([0, 3, 5], 2), ([1, 4, 5], -1), ([1, 2, 4], -1),
   ([0, 2, 4], -1), ([1, 3], -1), ([0, 1, 2, 3], -1), ([1, 2, 3], -1), ([2, 3, 5], -1)]

/-- The edges of the graph that `fit` returns: all are directed. -/
def exWrongEdges : List (Nat × Nat) :=
  [(0, 1), (1, 2), (0, 4), (5, 4), (0, 2), (3, 2), (4, 1), (0, 3), (5, 3)]

/-! Each round of the run is computed on its own: the record of local scores does not change what is chosen
(`Lemmas/GESSim.lean`), so that no single computation is long. -/

/-- The graph at the start of the run with `exWrong`. -/
def wrong0 : Graph Nat := ⟨.pdag, [0, 1, 2, 3, 4, 5], [0, 1, 2, 3, 4, 5],
    [(0, []), (1, []), (2, []), (3, []), (4, []), (5, [])]⟩

/-- The graph of the run with `exWrong` after 1 rounds. -/
def wrong1 : Graph Nat := ⟨.pdag, [0, 1, 2, 3, 4, 5], [0, 1, 2, 3, 4, 5],
    [(0, [(4, .tail)]), (1, []), (2, []), (3, []), (4, [(0, .tail)]), (5, [])]⟩

/-- The graph of the run with `exWrong` after 2 rounds. -/
def wrong2 : Graph Nat := ⟨.pdag, [0, 1, 2, 3, 4, 5], [0, 1, 2, 3, 4, 5],
    [(0, [(2, .tail), (4, .tail)]), (1, []), (2, [(0, .tail)]), (3, []), (4, [(0, .tail)]), (5, [])]⟩

/-- The graph of the run with `exWrong` after 3 rounds. -/
def wrong3 : Graph Nat := ⟨.pdag, [0, 1, 2, 3, 4, 5], [0, 1, 2, 3, 4, 5],
    [(0, [(4, .tail), (2, .arrow)]), (1, []), (2, [(0, .tail), (3, .tail)]), (3, [(2, .arrow)]), (4, [(0, .tail)]), (5, [])]⟩

/-- The graph of the run with `exWrong` after 4 rounds. -/
def wrong4 : Graph Nat := ⟨.pdag, [0, 1, 2, 3, 4, 5], [0, 1, 2, 3, 4, 5],
    [(0, [(1, .tail), (4, .tail), (2, .arrow)]), (1, [(0, .tail)]), (2, [(0, .tail), (3, .tail)]), (3, [(2, .arrow)]),
    (4, [(0, .tail)]), (5, [])]⟩

/-- The graph of the run with `exWrong` after 5 rounds. -/
def wrong5 : Graph Nat := ⟨.pdag, [0, 1, 2, 3, 4, 5], [0, 1, 2, 3, 4, 5],
    [(0, [(4, .tail), (2, .arrow), (1, .arrow)]), (1, [(2, .tail), (0, .tail)]), (2, [(0, .tail), (3, .tail), (1, .arrow)]),
    (3, [(2, .arrow)]), (4, [(0, .tail)]), (5, [])]⟩

/-- The graph of the run with `exWrong` after 6 rounds. -/
def wrong6 : Graph Nat := ⟨.pdag, [0, 1, 2, 3, 4, 5], [0, 1, 2, 3, 4, 5],
    [(0, [(1, .tail), (2, .tail), (3, .tail), (4, .tail)]), (1, [(0, .tail), (2, .tail)]),
    (2, [(0, .tail), (1, .tail), (3, .tail)]), (3, [(0, .tail), (2, .tail)]), (4, [(0, .tail)]), (5, [])]⟩

/-- The graph of the run with `exWrong` after 7 rounds. -/
def wrong7 : Graph Nat := ⟨.pdag, [0, 1, 2, 3, 4, 5], [0, 1, 2, 3, 4, 5],
    [(0, [(1, .tail), (2, .tail), (3, .tail), (4, .tail)]), (1, [(0, .tail), (2, .tail), (4, .tail)]),
    (2, [(0, .tail), (1, .tail), (3, .tail)]), (3, [(0, .tail), (2, .tail)]), (4, [(0, .tail), (1, .tail)]), (5, [])]⟩

/-- The graph of the run with `exWrong` after 8 rounds. -/
def wrong8 : Graph Nat := ⟨.pdag, [0, 1, 2, 3, 4, 5], [0, 1, 2, 3, 4, 5],
    [(0, [(1, .tail), (4, .tail), (3, .arrow), (2, .arrow)]), (1, [(0, .tail), (4, .tail), (2, .arrow)]),
    (2, [(3, .tail), (0, .tail), (1, .tail)]), (3, [(0, .tail), (5, .tail), (2, .arrow)]), (4, [(0, .tail), (1, .tail)]),
    (5, [(3, .arrow)])]⟩

/-- The graph of the run with `exWrong` after 9 rounds. -/
def wrong9 : Graph Nat := ⟨.pdag, [0, 1, 2, 3, 4, 5], [0, 1, 2, 3, 4, 5],
    [(0, [(3, .arrow), (4, .arrow), (2, .arrow), (1, .arrow)]), (1, [(2, .arrow), (4, .tail), (0, .tail)]),
    (2, [(1, .tail), (3, .tail), (0, .tail)]), (3, [(0, .tail), (5, .tail), (2, .arrow)]),
    (4, [(0, .tail), (5, .tail), (1, .arrow)]), (5, [(3, .arrow), (4, .arrow)])]⟩

theorem wrong_start : start 60 id (famScore exWrong) [0, 1, 2, 3, 4, 5] = .ok (0, wrong0) := by decide +kernel

theorem wrong_1 : fwdStage 60 id 3 (famScore exWrong) wrong0 = .ok (8, wrong1) := by decide +kernel

theorem wrong_2 : fwdStage 60 id 3 (famScore exWrong) wrong1 = .ok (7, wrong2) := by decide +kernel

theorem wrong_3 : fwdStage 60 id 3 (famScore exWrong) wrong2 = .ok (11, wrong3) := by decide +kernel

theorem wrong_4 : fwdStage 60 id 3 (famScore exWrong) wrong3 = .ok (6, wrong4) := by decide +kernel

theorem wrong_5 : fwdStage 60 id 3 (famScore exWrong) wrong4 = .ok (6, wrong5) := by decide +kernel

theorem wrong_6 : fwdStage 60 id 3 (famScore exWrong) wrong5 = .ok (5, wrong6) := by decide +kernel

theorem wrong_7 : fwdStage 60 id 3 (famScore exWrong) wrong6 = .ok (4, wrong7) := by decide +kernel

theorem wrong_8 : fwdStage 60 id 3 (famScore exWrong) wrong7 = .ok (2, wrong8) := by decide +kernel

theorem wrong_9 : fwdStage 60 id 3 (famScore exWrong) wrong8 = .ok (1, wrong9) := by decide +kernel

theorem wrong_chain : FwdChain 60 id 3 (famScore exWrong) wrong0
    [(8, wrong1), (7, wrong2), (11, wrong3), (6, wrong4), (6, wrong5), (5, wrong6), (4, wrong7), (2, wrong8), (1, wrong9)] :=
  ⟨wrong_1, wrong_2, wrong_3, wrong_4, wrong_5, wrong_6, wrong_7, wrong_8, wrong_9, trivial⟩

theorem wrong_fstop : fwdStop 60 3 (famScore exWrong) wrong9 = .ok true := by decide +kernel

theorem wrong_bstop : bwdStop id (famScore exWrong) wrong9 = .ok true := by decide +kernel

theorem exWrong_fit : fit 60 id 3 (famScore exWrong) [0, 1, 2, 3, 4, 5] = .ok (wrong9, 50) := by
  have h := fit_of_chain (so := id) (fun l => List.Perm.refl l) (famScore_set exWrong) (by decide) wrong_start wrong_chain
    wrong_fstop (l' := []) trivial wrong_bstop (by decide) (by decide)
  refine h.trans ?_
  have : (List.foldl (fun (a : ℚ) (p : ℚ × Graph Nat) => a + p.1) 0
    [(8, wrong1), (7, wrong2), (11, wrong3), (6, wrong4), (6, wrong5), (5, wrong6), (4, wrong7), (2, wrong8), (1, wrong9)]) = 50 := by
    norm_num
  exact congrArg (fun s => Except.ok (wrong9, s)) this

theorem exWrong_run : (fit 60 id 3 (famScore exWrong) [0, 1, 2, 3, 4, 5]).toOption.map (fun r => (r.2, r.1.nodes, decide
    (∀ u ∈ r.1.nodes, ∀ v ∈ r.1.nodes, (r.1.getEdge u v = .ok (some (dE u v)) ↔ (u, v) ∈ exWrongEdges) ∧
      (r.1.isConnected u v = .ok true → (u, v) ∈ exWrongEdges ∨ (v, u) ∈ exWrongEdges)))) =
    some (50, [0, 1, 2, 3, 4, 5], true) := by
  rw [exWrong_fit]
  decide +kernel

/-- **C56 is false: the reported score.** `fit` with the default bound on the parents returns a DAG and reports the score 50,
while the DAG scores 48. -/
theorem c56_wrong_score : ∃ (names : List Nat) (score : Nat → List Nat → ℚ) (g : Graph Nat), names.Nodup ∧ SetScore score ∧
    ScoreEquiv score names ∧ (∀ n, 60 ≤ n → fit n id (names.length / 2) score names = .ok (g, 50)) ∧ Extends (Dir g) g ∧
    ∀ D t, Extends D g → DagScore score names D t → t = 48 := by
  have hse : ScoreEquiv (famScore exWrong) [0, 1, 2, 3, 4, 5] := famScore_equiv (by decide) (by decide)
  have hsc := famScore_set exWrong
  have run := exWrong_run
  cases e : fit 60 id 3 (famScore exWrong) [0, 1, 2, 3, 4, 5] with
  | error x => rw [e] at run; cases run
  | ok r =>
    obtain ⟨g, s⟩ := r
    rw [e] at run
    simp only [Except.toOption, Option.map_some, Option.some.injEq, Prod.mk.injEq, decide_eq_true_eq] at run
    obtain ⟨hs, hn, hedge⟩ := run
    subst hs
    -- the result is a well-formed graph with directed edges only
    obtain ⟨_, _, _, _, hf⟩ := fit_ok (names := [0, 1, 2, 3, 4, 5]) (by decide) (so := id) (fun l => List.Perm.refl l) hsc 3
    have hdu : DU g := by
      rcases hf with ⟨g', s', _, _, M, e', hd, _⟩ | ⟨k, _⟩
      · have h1 := e' _ (Nat.le_max_left M 60)
        rw [fit_le (Nat.le_max_right M 60) id 3 _ _ _ e] at h1
        cases h1
        exact hd
      · exact absurd e (k 60 _)
    have hw := hdu.wf
    have dirE : ∀ u v, Dir g u v ↔ (u, v) ∈ exWrongEdges := by
      intro u v
      constructor
      · intro k
        have hm := Dir.mem hw k
        exact ((hedge u hm.1 v hm.2).1).1 k
      · intro k
        have : ∀ p ∈ exWrongEdges, p.1 ∈ [0, 1, 2, 3, 4, 5] ∧ p.2 ∈ [0, 1, 2, 3, 4, 5] := by decide
        have hm := this (u, v) k
        rw [← hn] at hm
        exact ((hedge u hm.1 v hm.2).1).2 k
    have conE : ∀ u v, Conn g u v → (u, v) ∈ exWrongEdges ∨ (v, u) ∈ exWrongEdges := by
      intro u v k
      have hm := Conn.mem hw k
      exact (hedge u hm.1 v hm.2).2 k
    have acE : Acyclic (Dir g) := by
      have rank : ∀ u v, Dir g u v → [0, 3, 4, 1, 2, 5].idxOf u < [0, 3, 4, 1, 2, 5].idxOf v ∨ u = 5 := by
        intro u v k
        have : ∀ p ∈ exWrongEdges, [0, 3, 4, 1, 2, 5].idxOf p.1 < [0, 3, 4, 1, 2, 5].idxOf p.2 ∨ p.1 = 5 := by decide
        exact this (u, v) ((dirE u v).1 k)
      have into5 : ∀ u, ¬ Dir g u 5 := by
        intro u k
        have : ∀ p ∈ exWrongEdges, p.2 ≠ 5 := by decide
        exact this (u, 5) ((dirE u 5).1 k) rfl
      have mono : ∀ a b, Relation.TransGen (Dir g) a b → b ≠ 5 ∧ (a = 5 ∨ [0, 3, 4, 1, 2, 5].idxOf a < [0, 3, 4, 1, 2, 5].idxOf b) := by
        intro a b k
        induction k with
        | @single b k => exact ⟨fun q => into5 a (q ▸ k), (rank a b k).symm⟩
        | @tail b c _ k ih =>
          refine ⟨fun q => into5 b (q ▸ k), ih.2.imp id (fun q => ?_)⟩
          rcases rank b c k with z | z
          · exact q.trans z
          · exact absurd z ih.1
      intro x k
      have := mono x x k
      rcases this.2 with q | q
      · exact this.1 q
      · exact absurd q (lt_irrefl _)
    have uniq : ∀ D, Extends D g → ∀ a b, D a b ↔ (a, b) ∈ exWrongEdges := by
      intro D hD a b
      refine ⟨fun k => ?_, fun k => hD.dir _ _ ((dirE a b).2 k)⟩
      rcases conE a b ((hD.adj a b).1 (Or.inl k)).2 with q | q
      · exact q
      · exact absurd (hD.dir _ _ ((dirE b a).2 q)) (hD.acyclic.asymm _ _ k)
    refine ⟨[0, 1, 2, 3, 4, 5], famScore exWrong, g, by decide, hsc, hse, fun n hn => ?_, ⟨acE, fun u v => ?_, fun _ _ k => k,
      fun _ _ _ _ k1 k2 _ => ⟨k1, k2⟩⟩, fun D t hD ht => ?_⟩
    · have h3 : (([0, 1, 2, 3, 4, 5] : List Nat).length : ℚ) / 2 = 3 := by norm_num
      rw [h3]
      exact fit_le hn id 3 _ _ _ e
    · constructor
      · rintro (k | k)
        · exact ⟨hdu.ne (Dir.conn hw k), Dir.conn hw k⟩
        · exact ⟨hdu.ne (Conn.symm hw (Dir.conn hw k)), Conn.symm hw (Dir.conn hw k)⟩
      · rintro ⟨_, k⟩
        rcases conE u v k with q | q
        · exact Or.inl ((dirE u v).2 q)
        · exact Or.inr ((dirE v u).2 q)
    · rw [ht (fun v => ((exWrongEdges.filter (fun p => p.2 = v)).map Prod.fst)) (fun v => ⟨?_, fun x => ?_⟩)]
      · decide +kernel
      · have hnd : exWrongEdges.Nodup := by decide
        refine List.Nodup.map_on ?_ (hnd.filter _)
        rintro ⟨a, b⟩ ha ⟨c, d⟩ hc (q : a = c)
        have h1 := (List.mem_filter.1 ha).2
        have h2 := (List.mem_filter.1 hc).2
        simp only [decide_eq_true_eq] at h1 h2
        rw [q, h1, h2]
      · rw [uniq D hD]
        simp

/-- Gains of sets of seven variables. -/
def exStuck : List (List Nat × ℚ) :=
  [([0, 3], 18), ([1, 3], 19), ([1, 2], 15), ([1, 2, 5], 6), ([2, 6], -1), ([1, 2, 3], 3), ([1, 2, 3, 5], -4), ([1, 3, 5], -1),
   ([2, 3], 9), ([2, 3, 5], 1), ([3, 5], 5), ([0, 2], 5), ([0, 2, 3], 6), ([0, 2, 6], 2), ([1, 5], 20), ([3, 6], 16), ([4, 5], 17),
   ([0, 1], 10), ([0, 1, 2], -1), ([0, 1, 3], -1), ([2, 4], 15), ([1, 3, 6], -1), ([2, 4, 5], -1), ([2, 5], 14), ([0, 1, 6], -1)]

/-- The graph at the start of the run with `exStuck`. -/
def stuck0 : Graph Nat := ⟨.pdag, [0, 1, 2, 3, 4, 5, 6], [0, 1, 2, 3, 4, 5, 6],
    [(0, []), (1, []), (2, []), (3, []), (4, []), (5, []), (6, [])]⟩

/-- The graph of the run with `exStuck` after 1 rounds. -/
def stuck1 : Graph Nat := ⟨.pdag, [0, 1, 2, 3, 4, 5, 6], [0, 1, 2, 3, 4, 5, 6],
    [(0, []), (1, [(5, .tail)]), (2, []), (3, []), (4, []), (5, [(1, .tail)]), (6, [])]⟩

/-- The graph of the run with `exStuck` after 2 rounds. -/
def stuck2 : Graph Nat := ⟨.pdag, [0, 1, 2, 3, 4, 5, 6], [0, 1, 2, 3, 4, 5, 6],
    [(0, []), (1, [(2, .tail), (5, .tail)]), (2, [(1, .arrow)]), (3, []), (4, []), (5, [(1, .arrow)]), (6, [])]⟩

/-- The graph of the run with `exStuck` after 3 rounds. -/
def stuck3 : Graph Nat := ⟨.pdag, [0, 1, 2, 3, 4, 5, 6], [0, 1, 2, 3, 4, 5, 6],
    [(0, []), (1, [(2, .tail), (5, .tail), (3, .arrow)]), (2, [(1, .arrow)]), (3, [(1, .tail)]), (4, []), (5, [(1, .arrow)]),
    (6, [])]⟩

/-- The graph of the run with `exStuck` after 4 rounds. -/
def stuck4 : Graph Nat := ⟨.pdag, [0, 1, 2, 3, 4, 5, 6], [0, 1, 2, 3, 4, 5, 6],
    [(0, [(3, .tail)]), (1, [(2, .tail), (5, .tail), (3, .arrow)]), (2, [(1, .arrow)]), (3, [(1, .tail), (0, .arrow)]),
    (4, []), (5, [(1, .arrow)]), (6, [])]⟩

/-- The graph of the run with `exStuck` after 5 rounds. -/
def stuck5 : Graph Nat := ⟨.pdag, [0, 1, 2, 3, 4, 5, 6], [0, 1, 2, 3, 4, 5, 6],
    [(0, [(3, .tail)]), (1, [(2, .tail), (5, .tail), (3, .arrow)]), (2, [(1, .arrow)]), (3, [(1, .tail), (0, .arrow)]),
    (4, [(5, .tail)]), (5, [(4, .tail), (1, .arrow)]), (6, [])]⟩

/-- The graph of the run with `exStuck` after 6 rounds. -/
def stuck6 : Graph Nat := ⟨.pdag, [0, 1, 2, 3, 4, 5, 6], [0, 1, 2, 3, 4, 5, 6],
    [(0, [(3, .tail)]), (1, [(2, .tail), (5, .tail), (3, .arrow)]), (2, [(1, .arrow)]),
    (3, [(1, .tail), (0, .arrow), (6, .arrow)]), (4, [(5, .tail)]), (5, [(4, .tail), (1, .arrow)]), (6, [(3, .tail)])]⟩

/-- The graph of the run with `exStuck` after 7 rounds. -/
def stuck7 : Graph Nat := ⟨.pdag, [0, 1, 2, 3, 4, 5, 6], [0, 1, 2, 3, 4, 5, 6],
    [(0, [(3, .tail)]), (1, [(2, .tail), (5, .tail), (3, .arrow)]), (2, [(4, .tail), (1, .arrow)]),
    (3, [(1, .tail), (0, .arrow), (6, .arrow)]), (4, [(2, .tail), (5, .tail)]), (5, [(4, .tail), (1, .arrow)]),
    (6, [(3, .tail)])]⟩

/-- The graph of the run with `exStuck` after 8 rounds. -/
def stuck8 : Graph Nat := ⟨.pdag, [0, 1, 2, 3, 4, 5, 6], [0, 1, 2, 3, 4, 5, 6],
    [(0, [(3, .tail)]), (1, [(2, .tail), (3, .tail), (5, .tail)]), (2, [(1, .tail), (4, .tail), (5, .tail)]),
    (3, [(0, .tail), (1, .tail), (6, .tail)]), (4, [(2, .tail), (5, .tail)]), (5, [(1, .tail), (2, .tail), (4, .tail)]),
    (6, [(3, .tail)])]⟩

/-- The graph of the run with `exStuck` after 9 rounds. -/
def stuck9 : Graph Nat := ⟨.pdag, [0, 1, 2, 3, 4, 5, 6], [0, 1, 2, 3, 4, 5, 6],
    [(0, [(3, .tail)]), (1, [(2, .tail), (3, .tail), (5, .tail)]), (2, [(1, .tail), (3, .tail), (4, .tail), (5, .tail)]),
    (3, [(0, .tail), (1, .tail), (2, .tail), (6, .tail)]), (4, [(2, .tail), (5, .tail)]),
    (5, [(1, .tail), (2, .tail), (4, .tail)]), (6, [(3, .tail)])]⟩

/-- The graph of the run with `exStuck` after 10 rounds. -/
def stuck10 : Graph Nat := ⟨.pdag, [0, 1, 2, 3, 4, 5, 6], [0, 1, 2, 3, 4, 5, 6],
    [(0, [(2, .tail), (3, .tail)]), (1, [(2, .tail), (3, .tail), (5, .tail)]),
    (2, [(0, .tail), (1, .tail), (3, .tail), (4, .tail), (5, .tail)]), (3, [(0, .tail), (1, .tail), (2, .tail), (6, .tail)]),
    (4, [(2, .tail), (5, .tail)]), (5, [(1, .tail), (2, .tail), (4, .tail)]), (6, [(3, .tail)])]⟩

/-- The graph of the run with `exStuck` after 11 rounds. -/
def stuck11 : Graph Nat := ⟨.pdag, [0, 1, 2, 3, 4, 5, 6], [0, 1, 2, 3, 4, 5, 6],
    [(0, [(1, .tail), (2, .tail), (3, .tail)]), (1, [(0, .tail), (2, .tail), (3, .tail), (5, .tail)]),
    (2, [(0, .tail), (1, .tail), (3, .tail), (4, .tail), (5, .tail)]), (3, [(0, .tail), (1, .tail), (2, .tail), (6, .tail)]),
    (4, [(2, .tail), (5, .tail)]), (5, [(1, .tail), (2, .tail), (4, .tail)]), (6, [(3, .tail)])]⟩

/-- The graph of the run with `exStuck` after 12 rounds. -/
def stuck12 : Graph Nat := ⟨.pdag, [0, 1, 2, 3, 4, 5, 6], [0, 1, 2, 3, 4, 5, 6],
    [(0, [(2, .tail), (6, .tail), (1, .arrow), (3, .tail)]), (1, [(0, .tail), (2, .tail), (5, .tail), (3, .arrow)]),
    (2, [(4, .tail), (5, .tail), (0, .arrow), (1, .arrow), (3, .arrow)]),
    (3, [(0, .arrow), (1, .tail), (2, .tail), (6, .arrow)]), (4, [(2, .tail), (5, .tail)]),
    (5, [(2, .tail), (4, .tail), (1, .arrow)]), (6, [(0, .arrow), (3, .tail)])]⟩

theorem stuck_start : start 400 id (famScore exStuck) [0, 1, 2, 3, 4, 5, 6] = .ok (0, stuck0) := by decide +kernel

theorem stuck_1 : fwdStage 400 id (7 / 2) (famScore exStuck) stuck0 = .ok (20, stuck1) := by decide +kernel

theorem stuck_2 : fwdStage 400 id (7 / 2) (famScore exStuck) stuck1 = .ok (21, stuck2) := by decide +kernel

theorem stuck_3 : fwdStage 400 id (7 / 2) (famScore exStuck) stuck2 = .ok (19, stuck3) := by decide +kernel

theorem stuck_4 : fwdStage 400 id (7 / 2) (famScore exStuck) stuck3 = .ok (18, stuck4) := by decide +kernel

theorem stuck_5 : fwdStage 400 id (7 / 2) (famScore exStuck) stuck4 = .ok (17, stuck5) := by decide +kernel

theorem stuck_6 : fwdStage 400 id (7 / 2) (famScore exStuck) stuck5 = .ok (16, stuck6) := by decide +kernel

theorem stuck_7 : fwdStage 400 id (7 / 2) (famScore exStuck) stuck6 = .ok (15, stuck7) := by decide +kernel

theorem stuck_8 : fwdStage 400 id (7 / 2) (famScore exStuck) stuck7 = .ok (13, stuck8) := by decide +kernel

theorem stuck_9 : fwdStage 400 id (7 / 2) (famScore exStuck) stuck8 = .ok (12, stuck9) := by decide +kernel

theorem stuck_10 : fwdStage 400 id (7 / 2) (famScore exStuck) stuck9 = .ok (11, stuck10) := by decide +kernel

theorem stuck_11 : fwdStage 400 id (7 / 2) (famScore exStuck) stuck10 = .ok (8, stuck11) := by decide +kernel

theorem stuck_12 : fwdStage 400 id (7 / 2) (famScore exStuck) stuck11 = .ok (2, stuck12) := by decide +kernel

theorem stuck_chain : FwdChain 400 id (7 / 2) (famScore exStuck) stuck0
    [(20, stuck1), (21, stuck2), (19, stuck3), (18, stuck4), (17, stuck5), (16, stuck6), (15, stuck7), (13, stuck8), (12, stuck9), (11, stuck10), (8, stuck11), (2, stuck12)] :=
  ⟨stuck_1, stuck_2, stuck_3, stuck_4, stuck_5, stuck_6, stuck_7, stuck_8, stuck_9, stuck_10, stuck_11, stuck_12, trivial⟩

theorem stuck_end : stuckG 400 (7 / 2) (famScore exStuck) ⟨stuck12, 0, fun _ => []⟩ = .ok true := by decide +kernel

theorem exStuck_run : stuckAfter 400 id (7 / 2) (famScore exStuck) [0, 1, 2, 3, 4, 5, 6] 12 = .ok true :=
  stuck_of_chain (so := id) (fun l => List.Perm.refl l) (famScore_set exStuck) (by decide) stuck_start stuck_chain stuck_end

/-- **C56 is false: `fit` need not return.** With the default bound on the parents, in the thirteenth insertion `pdag2dag` runs
forever. -/
theorem c56_hangs : ∃ (names : List Nat) (score : Nat → List Nat → ℚ), names.Nodup ∧ SetScore score ∧ ScoreEquiv score names ∧
    ∀ n x, fit n id (names.length / 2) score names ≠ .ok x := by
  refine ⟨[0, 1, 2, 3, 4, 5, 6], famScore exStuck, by decide, famScore_set _, famScore_equiv (by decide) (by decide), fun n x => ?_⟩
  have h3 : (([0, 1, 2, 3, 4, 5, 6] : List Nat).length : ℚ) / 2 = 7 / 2 := by norm_num
  rw [h3]
  exact fit_stuck (fun l => List.Perm.refl l) exStuck_run n x

end Cdmir
