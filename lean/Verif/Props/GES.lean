import Verif.Lemmas.GESFit
import Verif.Lemmas.GESOpsGen

/-! Properties C47-C54: greedy equivalence search. -/

set_option linter.unusedSectionVars false

namespace Cdmir
open Graph Spec GES

section
variable {α : Type} [DecidableEq α] {K : Type} [Field K] [LinearOrder K] [IsStrictOrderedRing K] {g : Graph α}

omit [DecidableEq α] in
/-- **C47.** `Combinatorial` lists every subset once, by size, the empty one first. -/
theorem c47_combinatorial {l : List α} (h : l.Nodup) :
    (∀ s, s ∈ combinatorial l ↔ s.Sublist l) ∧ (combinatorial l).Nodup ∧
      (combinatorial l).Pairwise (fun s t => s.length ≤ t.length) ∧ (combinatorial l).head? = some [] ∧
      (∀ P : α → Bool, ∃ s ∈ combinatorial l, ∀ x, x ∈ s ↔ x ∈ l ∧ P x) := by
  refine ⟨fun s => mem_combinatorial, combinatorial_nodup h, combinatorial_sorted l, ?_, fun P => ?_⟩
  · have h1 : ([] : List α) ∈ combinatorial l := mem_combinatorial.2 (List.nil_sublist l)
    have h2 := combinatorial_sorted l
    cases e : combinatorial l with
    | nil => rw [e] at h1; simp at h1
    | cons a t =>
      rw [e] at h1 h2
      rcases List.mem_cons.1 h1 with rfl | k
      · rfl
      · have := (List.pairwise_cons.1 h2).1 [] k
        simp only [List.length_nil, Nat.le_zero, List.length_eq_zero_iff] at this
        rw [this]; rfl
  · exact ⟨l.filter P, mem_combinatorial.2 List.filter_sublist, fun x => by simp⟩

/-- **C48.** `check_clique` decides pairwise adjacency. -/
theorem c48_clique (h : ReachableSimple .pdag g) {l : List α} (hl : l.Nodup) :
    ∃ b, checkClique g l = .ok b ∧ (b = true ↔ ∀ a ∈ l, ∀ c ∈ l, a ≠ c → Conn g a c) :=
  ⟨_, checkClique_ok h hl, by simp⟩

/-- **C49.** `Insert_vC2_new` ends and decides whether `nat` meets every semi-directed path from `j` to `i` before `i`. -/
theorem c49_path_test (h : ReachableSimple .pdag g) (hdu : ∀ u v, Conn g u v → Dir g u v ∨ Dir g v u ∨ Und g u v) {i j : α}
    (hj : j ∈ g.nodes) (nat : List α) :
    ∃ N b, (∀ n, N ≤ n → insertVC2 n g j i nat = .ok b) ∧
      (b = true ↔ ∀ p, SemiPath g p j i → ∃ x ∈ p, x ≠ i ∧ x ∈ nat) := by
  refine ⟨_, _, fun n hn => insertVC2_ok ⟨h, hdu⟩ hj nat hn, ?_⟩
  classical
  have : (¬ Bad g i nat j []) ↔ ∀ p, SemiPath g p j i → ∃ x ∈ p, x ≠ i ∧ x ∈ nat := by
    rw [bad_iff]
    push Not
    exact Iff.rfl
  rw [decide_eq_true_eq, this]

/-- **C50.** `find_subset_include` marks the members that contain `s0`. -/
theorem c50_superset (s0 : List α) (sub : List (List α)) :
    (findSubsetInclude s0 sub).length = sub.length ∧
      ∀ k (hk : k < sub.length), (findSubsetInclude s0 sub)[k]? = some true ↔ ∀ x ∈ s0, x ∈ sub[k] := by
  rw [findSubsetInclude_eq]
  refine ⟨by simp, fun k hk => ?_⟩
  simp [hk]

/-- **C51, Insert.** -/
theorem c51_insert (h : ReachableSimple .pdag g) (hdu : ∀ u v, Conn g u v → Dir g u v ∨ Dir g v u ∨ Und g u v) {i j : α}
    (hi : i ∈ g.nodes) (hj : j ∈ g.nodes) (hne : i ≠ j) {T : List α} (hT : ∀ t ∈ T, t ∈ g.nodes ∧ t ≠ j) :
    ∃ g', insertOp g i j T = .ok g' ∧ ReachableSimple .pdag g' ∧ g'.nodes = g.nodes ∧ Dir g' i j ∧ (∀ t ∈ T, Dir g' t j) ∧
      ∀ a b, ¬ (b = j ∧ (a = i ∨ a ∈ T)) → ¬ (a = j ∧ (b = i ∨ b ∈ T)) →
        (Conn g' a b ↔ Conn g a b) ∧ (Dir g' a b ↔ Dir g a b) ∧ (Und g' a b ↔ Und g a b) := by
  have hd : DU g := ⟨h, hdu⟩
  obtain ⟨g', e, f⟩ := insertOp_gen hd hi hj hne hT
  refine ⟨g', e, f.du.rs, f.nodes, (f.dir _ _).2 (Or.inl ⟨rfl, Or.inl rfl⟩), fun t ht => (f.dir _ _).2 (Or.inl ⟨rfl, Or.inr ht⟩),
    fun a b k1 k2 => ?_⟩
  have k3 : Dir g' a b ↔ Dir g a b := by rw [f.dir]; grind
  have k4 : Dir g' b a ↔ Dir g b a := by rw [f.dir]; grind
  have k5 : Und g' a b ↔ Und g a b := by rw [f.und]; grind
  refine ⟨?_, k3, k5⟩
  have c1 := hdu a b
  have c2 := f.du.du a b
  constructor
  · intro k
    rcases c2 k with q | q | q
    · exact Dir.conn hd.wf (k3.1 q)
    · exact Conn.symm hd.wf (Dir.conn hd.wf (k4.1 q))
    · exact Und.conn hd.wf (k5.1 q)
  · intro k
    rcases c1 k with q | q | q
    · exact Dir.conn f.du.wf (k3.2 q)
    · exact Conn.symm f.du.wf (Dir.conn f.du.wf (k4.2 q))
    · exact Und.conn f.du.wf (k5.2 q)

/-- **C51, Delete.** -/
theorem c51_delete (h : ReachableSimple .pdag g) (hdu : ∀ u v, Conn g u v → Dir g u v ∨ Dir g v u ∨ Und g u v) {i j : α}
    (hi : i ∈ g.nodes) (hj : j ∈ g.nodes) (hne : i ≠ j) {H : List α} (hH : ∀ t ∈ H, t ∈ g.nodes ∧ t ≠ i ∧ t ≠ j) :
    ∃ g', deleteOp g i j H = .ok g' ∧ ReachableSimple .pdag g' ∧ g'.nodes = g.nodes ∧ ¬ Conn g' i j ∧
      (∀ t ∈ H, Dir g' i t ∧ Dir g' j t) ∧
      ∀ a b, ¬ ((a = i ∨ a = j) ∧ (b = i ∨ b = j)) → ¬ (b ∈ H ∧ (a = i ∨ a = j)) → ¬ (a ∈ H ∧ (b = i ∨ b = j)) →
        (Conn g' a b ↔ Conn g a b) ∧ (Dir g' a b ↔ Dir g a b) ∧ (Und g' a b ↔ Und g a b) := by
  have hd : DU g := ⟨h, hdu⟩
  obtain ⟨g', e, f⟩ := deleteOp_gen hd hi hj hne hH
  refine ⟨g', e, f.du.rs, f.nodes, fun k => ?_, fun t ht => ⟨(f.dir _ _).2 (Or.inl ⟨ht, Or.inl rfl⟩),
    (f.dir _ _).2 (Or.inl ⟨ht, Or.inr rfl⟩)⟩, fun a b k0 k1 k2 => ?_⟩
  · have hi' := fun q => (hH i q).2.1 rfl
    have hj' := fun q => (hH j q).2.2 rfl
    rcases f.du.du _ _ k with q | q | q
    · rw [f.dir] at q; unfold GES.Same at q; grind
    · rw [f.dir] at q; unfold GES.Same at q; grind
    · rw [f.und] at q; unfold GES.Same at q; grind
  have k3 : Dir g' a b ↔ Dir g a b := by rw [f.dir]; unfold GES.Same; grind
  have k4 : Dir g' b a ↔ Dir g b a := by rw [f.dir]; unfold GES.Same; grind
  have k5 : Und g' a b ↔ Und g a b := by rw [f.und]; unfold GES.Same; grind
  refine ⟨?_, k3, k5⟩
  have c1 := hdu a b
  have c2 := f.du.du a b
  constructor
  · intro k
    rcases c2 k with q | q | q
    · exact Dir.conn hd.wf (k3.1 q)
    · exact Conn.symm hd.wf (Dir.conn hd.wf (k4.1 q))
    · exact Und.conn hd.wf (k5.1 q)
  · intro k
    rcases c1 k with q | q | q
    · exact Dir.conn f.du.wf (k3.2 q)
    · exact Conn.symm f.du.wf (Dir.conn f.du.wf (k4.2 q))
    · exact Und.conn f.du.wf (k5.2 q)

theorem Spec.Filled.ok {score : α → List α → K} (hsc : SetScore score) {r : Record α K} (h : Filled score r) : RecOK score r := by
  induction h with
  | empty => intro j e he; simp at he
  | ins _ h1 h2 h3 h4 e ih =>
    obtain ⟨r', e', k⟩ := insertChange_ok ⟨h1, h2⟩ hsc ih h3 h4 _
    rw [e] at e'
    cases e'
    exact k
  | del _ h1 h2 hso h3 h4 e ih =>
    obtain ⟨r', e', k⟩ := deleteChange_ok ⟨h1, h2⟩ hso hsc ih h3 h4 _
    rw [e] at e'
    cases e'
    exact k

/-- **C52.** Whatever calls filled the record, the changes reported are those of the score function. -/
theorem c52_record {score : α → List α → K} (hsc : SetScore score) {r : Record α K} (hr : Filled score r)
    (h : ReachableSimple .pdag g) (hdu : ∀ u v, Conn g u v → Dir g u v ∨ Dir g v u ∨ Und g u v) {i j : α} (hi : i ∈ g.nodes)
    (hj : j ∈ g.nodes) {T : List α} (hT : ∀ t ∈ T, t ∈ g.nodes) {so : List α → List α} (hso : ∀ l, (so l).Perm l) :
    (∃ c r', insertChange score g i j T r = .ok (c, r') ∧ InsertChange score g i j T c) ∧
      ∃ c r', deleteChange so score g i j T r = .ok (c, r') ∧ DeleteChange score g i j T c := by
  obtain ⟨r1, e1, _⟩ := insertChange_ok ⟨h, hdu⟩ hsc (hr.ok hsc) hi hj T
  obtain ⟨r2, e2, _⟩ := deleteChange_ok ⟨h, hdu⟩ hso hsc (hr.ok hsc) hi hj T
  exact ⟨⟨_, _, e1, insDelta_spec ⟨h, hdu⟩ hsc hi hT⟩, _, _, e2, delDelta_spec ⟨h, hdu⟩ hsc hi⟩

/-- **C53, forward.** A forward pass selects a valid insertion of greatest change; it selects none only if no valid insertion
has a change above -10000000. -/
theorem c53_forward {score : α → List α → K} (hsc : SetScore score) {r : Record α K} (hr : Filled score r)
    (h : ReachableSimple .pdag g) (hdu : ∀ u v, Conn g u v → Dir g u v ∨ Dir g v u ∨ Und g u v) (maxP : ℚ) :
    ∃ N b, (∀ n, N ≤ n → forwardPass n maxP score g r = .ok b) ∧
      (∀ i j T, b.op = some (i, j, T) → ValidInsert g maxP i j T ∧ InsertChange score g i j T b.change ∧
        ∀ i' j' T' c', ValidInsert g maxP i' j' T' → InsertChange score g i' j' T' c' → c' ≤ b.change) ∧
      (b.op = none ↔ ∀ i j T c, ValidInsert g maxP i j T → InsertChange score g i j T c → c ≤ -10000000) := by
  obtain ⟨b, e, _, h1, h2, h3⟩ := forwardPass_best ⟨h, hdu⟩ hsc maxP (le_refl (vC2Bound g.nodeList.length)) (hr.ok hsc)
  refine ⟨_, b, fun n hn => forwardPass_le hn maxP score g r _ e, fun i j T ho => ⟨(h3 i j T ho).1, (h3 i j T ho).2.2.1, h1⟩, ?_, ?_⟩
  · intro ho i j T c hv hc
    rw [← h2 ho]
    exact h1 i j T c hv hc
  · intro hall
    cases ho : b.op with
    | none => rfl
    | some o =>
      obtain ⟨i, j, T⟩ := o
      obtain ⟨k1, _, k3, k4⟩ := h3 i j T ho
      exact absurd (hall i j T _ k1 k3) (not_le.2 k4)

/-- **C53, backward.** -/
theorem c53_backward {score : α → List α → K} (hsc : SetScore score) {r : Record α K} (hr : Filled score r)
    (h : ReachableSimple .pdag g) (hdu : ∀ u v, Conn g u v → Dir g u v ∨ Dir g v u ∨ Und g u v) {so : List α → List α}
    (hso : ∀ l, (so l).Perm l) :
    ∃ b, backwardPass so score g r = .ok b ∧
      (∀ i j T, b.op = some (i, j, T) → ValidDelete g i j T ∧ DeleteChange score g i j T b.change ∧
        ∀ i' j' T' c', ValidDelete g i' j' T' → DeleteChange score g i' j' T' c' → c' ≤ b.change) ∧
      (b.op = none ↔ ∀ i j T c, ValidDelete g i j T → DeleteChange score g i j T c → c ≤ -10000000) := by
  obtain ⟨b, e, _, h1, h2, h3⟩ := backwardPass_best ⟨h, hdu⟩ hso hsc (hr.ok hsc)
  refine ⟨b, e, fun i j T ho => ⟨(h3 i j T ho).1, (h3 i j T ho).2.2.1, h1⟩, ?_, ?_⟩
  · intro ho i j T c hv hc
    rw [← h2 ho]
    exact h1 i j T c hv hc
  · intro hall
    cases ho : b.op with
    | none => rfl
    | some o =>
      obtain ⟨i, j, T⟩ := o
      obtain ⟨k1, _, k3, k4⟩ := h3 i j T ho
      exact absurd (hall i j T _ k1 k3) (not_le.2 k4)

/-- **C54.** `GES.fit` on `names`. Either it returns, with the same result for every large enough bound on the loops: from the
empty graph at most `n(n-1)/2` rounds of insertion to a graph without improving insertion, then at most as many rounds of
deletion to a graph without improving deletion; every round raises the score. Or it never returns, and then `pdag2dag` does not
return in one of its rounds. -/
theorem c54_fit {names : List α} (hN : names.Nodup) {so : List α → List α} (hso : ∀ l, (so l).Perm l)
    {score : α → List α → K} (hsc : SetScore score) (maxP : ℚ) :
    ∃ g0 : Graph α, ReachableSimple .pdag g0 ∧ g0.nodes = names ∧ (∀ u v, ¬ Conn g0 u v) ∧
      ((∃ g s gm sm N k l, (∀ n, N ≤ n → fit n so maxP score names = .ok (g, s)) ∧
          ReachableSimple .pdag g ∧ g.nodes = names ∧ (∀ u v, Conn g u v → Dir g u v ∨ Dir g v u ∨ Und g u v) ∧
          Rounds (InsertRound so maxP score) k (g0, (names.map (fun v => score v [])).sum) (gm, sm) ∧
          InsertOptimal maxP score gm ∧ Rounds (DeleteRound so score) l (gm, sm) (g, s) ∧ DeleteOptimal score g ∧
          2 * k ≤ names.length * (names.length - 1) ∧ 2 * l ≤ names.length * (names.length - 1) ∧
          (names.map (fun v => score v [])).sum ≤ s) ∨
       ((∀ n x, fit n so maxP score names ≠ .ok x) ∧ ∃ t,
          (Relation.ReflTransGen (InsertRound so maxP score) (g0, (names.map (fun v => score v [])).sum) t ∧
            InsertStuck maxP score t.1) ∨
          ∃ m, Relation.ReflTransGen (InsertRound so maxP score) (g0, (names.map (fun v => score v [])).sum) m ∧
            InsertOptimal maxP score m.1 ∧ Relation.ReflTransGen (DeleteRound so score) m t ∧ DeleteStuck score t.1)) := by
  obtain ⟨g0, r0, n0, c0, hf⟩ := fit_ok hN hso hsc maxP
  have d0 : DU g0 := ⟨r0, fun u v k => absurd k (c0 u v)⟩
  refine ⟨g0, r0, n0, c0, ?_⟩
  rcases hf with ⟨g, s, gm, sm, N, e, d, hn, ti, oi, td, od⟩ | hf
  · left
    obtain ⟨k, k1, k2, k3, k4, k5⟩ := insertRounds hso d0 ti
    obtain ⟨l, l1, l2, l3, l4, l5⟩ := deleteRounds hso k2 td
    have hz : shutPairs g0 = 0 := by
      classical
      unfold shutPairs
      rw [List.length_eq_zero_iff, List.filter_eq_nil_iff]
      intro p _
      simpa using c0 p.1 p.2
    have hm := shutPairs_max k2
    rw [k3] at hm
    have hn0 : g0.nodeList = names := n0
    simp only [hn0] at hm
    dsimp only at k4 l4 hm
    refine ⟨g, s, gm, sm, N, k, l, e, d.rs, hn, d.du, k1, oi, l1, od, ?_, ?_, k5.trans l5⟩
    · rw [Nat.mul_sub]; omega
    · rw [Nat.mul_sub]; omega
  · exact Or.inr hf

end

section examples

/-- 0 -> 1 - 2 - 3, 1 - 3, and 4 apart. -/
def exGes : Graph Nat := built .pdag [0, 1, 2, 3, 4] [dE 0 1, uE 1 2, uE 2 3, uE 1 3]

theorem exGes_reachable : ReachableSimple .pdag exGes := built_reachable _ _ _ (by decide) (by decide)
theorem exGes_du : ∀ u v, Conn exGes u v → Dir exGes u v ∨ Dir exGes v u ∨ Und exGes u v :=
  du_of_check exGes_reachable (by decide +kernel)

/-- A score that is equal on equivalent DAGs: an edge between 0 and 2 gains 5, between 1 and 2 gains 3, the family
{0, 1, 2} gains 2, every edge costs 1. -/
def exScore (j : Nat) (l : List Nat) : ℚ :=
  (l.map (fun p => if (j, p) ∈ [(0, 2), (2, 0)] then (4 : ℚ) else if (j, p) ∈ [(1, 2), (2, 1)] then 2 else -1)).sum +
    if j < 3 ∧ (0 = j ∨ 0 ∈ l) ∧ (1 = j ∨ 1 ∈ l) ∧ (2 = j ∨ 2 ∈ l) then 2 else 0

theorem exScore_set : SetScore exScore := by
  intro j l l' h h' he
  have := (List.perm_ext_iff_of_nodup h h').2 he
  unfold exScore
  rw [(this.map _).sum_eq]
  simp only [he]

example : combinatorial [3, 7, 5] = [[], [3], [7], [5], [3, 7], [3, 5], [7, 5], [3, 7, 5]] := by decide
example := c47_combinatorial (l := [3, 7, 5]) (by decide)

example : checkClique exGes [1, 2, 3] = .ok true ∧ checkClique exGes [0, 1, 2] = .ok false := by decide +kernel
example := c48_clique exGes_reachable (l := [0, 1, 2]) (by decide)

/-- From 0 there is a path to 3, every such path passes 1, not every path passes 2, and there is no path back from 3 to 0. -/
example : insertVC2 20 exGes 0 3 [] = .ok false ∧ insertVC2 20 exGes 0 3 [1] = .ok true ∧ insertVC2 20 exGes 0 3 [2] = .ok false ∧
    insertVC2 20 exGes 3 0 [] = .ok true := by decide +kernel
example := c49_path_test exGes_reachable exGes_du (i := 3) (j := 0) (by decide +kernel) [2]

example : findSubsetInclude [1] [[], [1], [2], [2, 1]] = [false, true, false, true] := by decide
example := c50_superset [1] [[], [1], [2], [2, 1]]

example := c51_insert exGes_reachable exGes_du (i := 4) (j := 1) (by decide +kernel) (by decide +kernel) (by decide)
  (T := [2, 3]) (by decide +kernel)
example := c51_delete exGes_reachable exGes_du (i := 1) (j := 2) (by decide +kernel) (by decide +kernel) (by decide)
  (H := [3]) (by decide +kernel)

/-- A record filled by a call. -/
theorem exFilled : Filled exScore
    ((insertChange exScore exGes 4 1 [2] (fun _ => [])).toOption.getD (0, fun _ => [])).2 := by
  have hd : DU exGes := ⟨exGes_reachable, exGes_du⟩
  obtain ⟨r', e, _⟩ := insertChange_ok hd exScore_set (r := fun _ => []) (Filled.ok exScore_set .empty) (i := 4) (j := 1)
    (by decide +kernel) (by decide +kernel) [2]
  have : Filled exScore r' := .ins .empty exGes_reachable exGes_du (by decide +kernel) (by decide +kernel) e
  rw [e]
  exact this
example := c52_record exScore_set exFilled exGes_reachable exGes_du (i := 1) (j := 2) (by decide +kernel) (by decide +kernel)
  (T := [3]) (by decide +kernel) (so := List.reverse) List.reverse_perm
/-- Changes computed from the empty record. -/
example : (insertChange exScore exGes 0 2 [] (fun _ => [])).toOption.map Prod.fst = some 6 ∧
    (deleteChange id exScore exGes 1 2 [] (fun _ => [])).toOption.map Prod.fst = some (-2) := by
  decide +kernel

example := c53_forward exScore_set exFilled exGes_reachable exGes_du 10
example := c53_backward exScore_set exFilled exGes_reachable exGes_du (so := id) (fun _ => List.Perm.refl _)
/-- The insertion and the deletion selected. -/
example : (forwardPass 60 10 exScore exGes (fun _ => [])).toOption.map (fun b => b.op) = some (some (0, 2, [])) := by
  decide +kernel
example : (backwardPass id exScore exGes (fun _ => [])).toOption.map (fun b => b.op) = some (some (0, 1, [])) := by
  decide +kernel

example := c54_fit (names := [0, 1, 2]) (by decide) (so := id) (fun _ => List.Perm.refl _) exScore_set 10
/-- The insertions 0 - 2 and 1 -> 2 with 0 -> 2: the result is the collider with the score 8. -/
example : (fit 60 id 10 exScore [0, 1, 2]).toOption.map (fun r => (r.1.edges.toOption, r.2)) =
    some (some [dE 0 2, dE 1 2], 8) := by decide +kernel

end examples
end Cdmir
