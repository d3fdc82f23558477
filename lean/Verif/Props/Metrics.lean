import Verif.Props.PDAG
import Verif.Lemmas.Same
import Mathlib.Tactic.Linarith
import Mathlib.Tactic.FieldSimp

/-! Properties C06 (second part), C36 and C37: comparing graphs. -/

namespace Cdmir
open Graph Spec

section
variable {α : Type} [DecidableEq α] {k : Kind} {g h f g' : Graph α}

/-- **C06, `graph_equal`.** For DiGraph and PDAG objects on the same node sequence it returns true iff `get_edge` agrees
everywhere. -/
theorem c06_graph_equal (hk : k ≠ .graph) (hg : Reachable k g) (hh : Reachable k h) (hn : g.nodes = h.nodes) :
    ∃ b, g.graphEqual h = .ok b ∧ (b = true ↔ ∀ u v, g.getEdge u v = h.getEdge u v) := by
  obtain ⟨b, hb, hi⟩ := graphEqual_iff hg.good.1 hh.good.1 (hg.good.2.trans hh.good.2.symm) (by rw [hg.good.2]; exact hk) hn
  refine ⟨b, hb, hi.trans ⟨fun hm => ?_, fun he => ?_⟩⟩
  · exact Same.getEdge ⟨hg.good.1.wf, hh.good.1.wf, hg.good.2.trans hh.good.2.symm, hn, hm⟩
  · exact (Same.of_getEdge hg.good.1.wf hh.good.1.wf (hg.good.2.trans hh.good.2.symm) hn (fun u _ v _ => he u v)).mark

/-- All comparison functions refuse graphs of different types or with different node sequences. -/
theorem c06_mismatch (hm : g.kind ≠ h.kind ∨ g.nodes ≠ h.nodes) :
    g.graphEqual h = .error .assertion ∧ g.shd h = .error .assertion ∧ g.skeletonEvaluation h = .error .assertion ∧
    g.arrowEvaluation h = .error .assertion ∧ g.directedEdgeEvaluation h = .error .assertion := by
  have : missMatch g h = .error .assertion := by
    unfold missMatch
    by_cases hk : g.kind = h.kind
    · rw [if_neg (by simp [hk]), if_pos (hm.resolve_left (by simp [hk]))]; rfl
    · rw [if_pos hk]; rfl
  unfold graphEqual shd skeletonEvaluation arrowEvaluation directedEdgeEvaluation
  rw [this]
  exact ⟨rfl, rfl, rfl, rfl, rfl⟩

theorem missMatch_ok (hk : g.kind = h.kind) (hn : g.nodes = h.nodes) : missMatch g h = .ok () := by
  unfold missMatch
  rw [if_neg (by simp [hk]), if_neg (by simp [hn])]; rfl

/-- Pure form of `shd`. -/
def shdCount (g h : Graph α) : Nat := (pairs g.nodeList).countP (fun p => g.edge? p.1 p.2 ≠ h.edge? p.1 p.2)

theorem shd_ok (hg : g.WF) (hh : h.WF) (hk : g.kind = h.kind) (hn : g.nodeList = h.nodeList) :
    g.shd h = .ok (shdCount g h) := by
  unfold shd
  rw [missMatch_ok hk hn]
  show (pairs g.nodeList).foldlM _ 0 = _
  have key : ∀ (l : List (α × α)) (n : Nat), (∀ p ∈ l, p.1 ∈ g.nodeList ∧ p.2 ∈ g.nodeList) →
      l.foldlM (m := Except Err) (fun n p => do
        let d ← shdTerm g h p
        pure (n + d)) n = .ok (n + l.countP (fun p => g.edge? p.1 p.2 ≠ h.edge? p.1 p.2)) := by
    intro l
    induction l with
    | nil => intro n _; rfl
    | cons p l ih =>
      intro n hl
      have hp := hl p (by simp)
      have e : shdTerm g h p = .ok (if g.edge? p.1 p.2 = h.edge? p.1 p.2 then 0 else 1) := by
        unfold shdTerm
        rw [getEdge_ok hg hp.1 hp.2, getEdge_ok hh (hn ▸ hp.1) (hn ▸ hp.2)]
        rfl
      rw [List.foldlM_cons, e]
      show List.foldlM _ (n + _) l = _
      rw [ih _ (fun q hq => hl q (by simp [hq])), List.countP_cons]
      congr 1
      by_cases hc : g.edge? p.1 p.2 = h.edge? p.1 p.2 <;> simp [hc]; omega
  rw [key _ _ (fun p hp => mem_pairs_mem hp)]
  simp [shdCount]

theorem shdCount_comm (hn : g.nodeList = h.nodeList) : shdCount g h = shdCount h g := by
  unfold shdCount
  rw [hn]
  apply List.countP_congr
  intro p _
  simp only [decide_eq_true_eq]
  exact ⟨Ne.symm, Ne.symm⟩

omit [DecidableEq α] in
theorem countP_add {β : Type} (P Q R : β → Bool) (l : List β) (h : ∀ x ∈ l, P x = true → Q x = true ∨ R x = true) :
    l.countP P ≤ l.countP Q + l.countP R := by
  induction l with
  | nil => simp
  | cons a l ih =>
    have i := ih (fun x hx => h x (by simp [hx]))
    have ha := h a (by simp)
    simp only [List.countP_cons]
    cases hp : P a <;> cases hq : Q a <;> cases hr : R a <;> simp_all <;> omega

/-- **C36.** `shd` on graphs of the same class over the same nodes: symmetric, zero iff the graphs agree on every pair,
at most the number of pairs. -/
theorem c36_shd (hg : Reachable k g) (hh : Reachable k h) (hn : g.nodes = h.nodes) :
    ∃ n, g.shd h = .ok n ∧ h.shd g = .ok n ∧ n ≤ g.nodes.length * (g.nodes.length - 1) / 2 ∧
      (n = 0 ↔ ∀ u v, u ≠ v → g.getEdge u v = h.getEdge u v) := by
  have wg := hg.good.1.wf
  have wh := hh.good.1.wf
  have hk := hg.good.2.trans hh.good.2.symm
  have hn : g.nodeList = h.nodeList := hn
  refine ⟨shdCount g h, shd_ok wg wh hk hn, ?_, ?_, ?_⟩
  · rw [shd_ok wh wg hk.symm hn.symm, shdCount_comm hn]
  · exact (List.countP_le_length).trans (pairs_length g.nodeList).le
  · unfold shdCount
    rw [List.countP_eq_zero]
    constructor
    · intro hz u v huv
      by_cases hm : u ∈ g.nodeList ∧ v ∈ g.nodeList
      · have flip : ∀ x y, g.edge? x y = h.edge? x y → g.edge? y x = h.edge? y x := by
          intro x y he
          unfold edge? at *
          have s1 := wg.symm_iff x y
          have s2 := wh.symm_iff x y
          cases e1 : g.mark x y <;> cases e2 : g.mark y x <;> cases e3 : h.mark x y <;> cases e4 : h.mark y x <;>
            simp_all
        rw [getEdge_ok wg hm.1 hm.2, getEdge_ok wh (hn ▸ hm.1) (hn ▸ hm.2)]
        congr 1
        rcases pairs_complete hm.1 hm.2 huv with hp | hp
        · have := hz _ hp; simpa using this
        · have := hz _ hp; exact flip _ _ (by simpa using this)
      · rw [getEdge_err wg hm, getEdge_err wh (hn ▸ hm)]
    · rintro he ⟨u, v⟩ hp
      have hm := mem_pairs_mem hp
      have := he u v (mem_pairs_ne wg.nodup hp)
      rw [getEdge_ok wg hm.1 hm.2, getEdge_ok wh (hn ▸ hm.1) (hn ▸ hm.2)] at this
      simpa using this

/-- **C36, triangle inequality.** -/
theorem c36_triangle (hg : Reachable k g) (hh : Reachable k h) (hf : Reachable k f) (n1 : g.nodes = h.nodes)
    (n2 : h.nodes = f.nodes) : ∃ a b c, g.shd h = .ok a ∧ h.shd f = .ok b ∧ g.shd f = .ok c ∧ c ≤ a + b := by
  have n1 : g.nodeList = h.nodeList := n1
  have n2 : h.nodeList = f.nodeList := n2
  refine ⟨_, _, _, shd_ok hg.good.1.wf hh.good.1.wf (hg.good.2.trans hh.good.2.symm) n1,
    shd_ok hh.good.1.wf hf.good.1.wf (hh.good.2.trans hf.good.2.symm) n2,
    shd_ok hg.good.1.wf hf.good.1.wf (hg.good.2.trans hf.good.2.symm) (n1.trans n2), ?_⟩
  unfold shdCount
  rw [← n1]
  apply countP_add
  intro p _ hp
  simp only [ne_eq, decide_not, Bool.not_eq_eq_eq_not, Bool.not_true, decide_eq_false_iff_not] at *
  by_contra hc
  push Not at hc
  exact hp (hc.1.trans hc.2)

/-- **C36, one edge.** One successful call of `add_edge` (also with `overwrite`) or `remove_edge` changes the distance to any
graph by at most one. -/
theorem c36_one_edge (hg : Reachable k g) (hh : Reachable k h) (hn : g.nodes = h.nodes)
    (hop : (∃ e ow, g.addEdge e ow = .ok g') ∨ ∃ u v, g.removeEdge u v = .ok g') :
    ∃ a b, g.shd h = .ok a ∧ g'.shd h = .ok b ∧ a ≤ b + 1 ∧ b ≤ a + 1 := by
  have wg := hg.good.1.wf
  have hn : g.nodeList = h.nodeList := hn
  have hkk := hg.good.2.trans hh.good.2.symm
  have key : g'.WF ∧ g'.kind = g.kind ∧ g'.nodeList = g.nodeList ∧
      ∃ u v, ∀ a b, ¬ ((a = u ∧ b = v) ∨ (a = v ∧ b = u)) → g'.mark a b = g.mark a b := by
    rcases hop with ⟨e, ow, he⟩ | ⟨u, v, he⟩
    · have := (addEdge_good hg.good.1 he)
      obtain ⟨_, rfl⟩ := (addEdge_ok_iff wg).1 he
      refine ⟨this.1.wf, this.2, rfl, e.u, e.v, fun a b hab => ?_⟩
      rw [mark_put, if_neg (by tauto), if_neg (by tauto)]
    · have := (removeEdge_good hg.good.1 he)
      by_cases hm : u ∈ g.nodeList ∧ v ∈ g.nodeList
      · rw [removeEdge_ok wg hm.1 hm.2] at he
        cases he
        refine ⟨this.1.wf, this.2, by split_ifs <;> rfl, u, v, fun a b hab => ?_⟩
        split_ifs
        · rw [mark_drop wg, if_neg hab]
        · rfl
      · rw [removeEdge_err wg hm] at he; cases he
  obtain ⟨w', k', n', u, v, hf⟩ := key
  refine ⟨_, _, shd_ok wg hh.good.1.wf hkk hn, shd_ok w' hh.good.1.wf (k'.trans hkk) (n'.trans hn), ?_⟩
  have one : (pairs g.nodeList).countP (fun p => decide ((p.1 = u ∧ p.2 = v) ∨ (p.1 = v ∧ p.2 = u))) ≤ 1 := by
    by_cases hp : (u, v) ∈ pairs g.nodeList
    · have e : (pairs g.nodeList).countP (fun p => decide ((p.1 = u ∧ p.2 = v) ∨ (p.1 = v ∧ p.2 = u))) =
          (pairs g.nodeList).count (u, v) := by
        rw [List.count]
        apply List.countP_congr
        rintro ⟨a, b⟩ hab
        have hna := pairs_asymm wg.nodup hp
        simp only [decide_eq_true_eq, beq_iff_eq, Prod.mk.injEq]
        constructor
        · rintro (h | ⟨rfl, rfl⟩)
          · exact h
          · exact absurd hab hna
        · exact Or.inl
      rw [e]
      exact List.nodup_iff_count_le_one.1 (pairs_nodup wg.nodup) _
    · have e : (pairs g.nodeList).countP (fun p => decide ((p.1 = u ∧ p.2 = v) ∨ (p.1 = v ∧ p.2 = u))) =
          (pairs g.nodeList).count (v, u) := by
        rw [List.count]
        apply List.countP_congr
        rintro ⟨a, b⟩ hab
        simp only [decide_eq_true_eq, beq_iff_eq, Prod.mk.injEq]
        constructor
        · rintro (⟨rfl, rfl⟩ | h)
          · exact absurd hab hp
          · exact h
        · exact Or.inr
      rw [e]
      exact List.nodup_iff_count_le_one.1 (pairs_nodup wg.nodup) _
  have hfe : ∀ a b, ¬ ((a = u ∧ b = v) ∨ (a = v ∧ b = u)) → g'.edge? a b = g.edge? a b := by
    intro a b hab
    unfold edge?
    rw [hf a b hab, hf b a (by tauto)]
  unfold shdCount
  rw [n']
  constructor
  · refine (countP_add _ (fun p => g'.edge? p.1 p.2 ≠ h.edge? p.1 p.2)
      (fun p => decide ((p.1 = u ∧ p.2 = v) ∨ (p.1 = v ∧ p.2 = u))) _ ?_).trans (Nat.add_le_add_left one _)
    intro p _ hp
    by_cases hc : (p.1 = u ∧ p.2 = v) ∨ (p.1 = v ∧ p.2 = u)
    · right; simpa using hc
    · left; simp only [hfe _ _ hc]; exact hp
  · refine (countP_add _ (fun p => g.edge? p.1 p.2 ≠ h.edge? p.1 p.2)
      (fun p => decide ((p.1 = u ∧ p.2 = v) ∨ (p.1 = v ∧ p.2 = u))) _ ?_).trans (Nat.add_le_add_left one _)
    intro p _ hp
    by_cases hc : (p.1 = u ∧ p.2 = v) ∨ (p.1 = v ∧ p.2 = u)
    · right; simpa using hc
    · left; simp only [← hfe _ _ hc]; exact hp

/-! ### C37 -/

omit [DecidableEq α] in
theorem ask_ok (q : α → α → Except Err Bool) (l : List (α × α)) (hq : ∀ p ∈ l, ∃ b, q p.1 p.2 = .ok b) :
    ask q l = .ok (l.map (fun p => decide (q p.1 p.2 = .ok true))) := by
  unfold ask
  induction l with
  | nil => rfl
  | cons p l ih =>
    obtain ⟨b, hb⟩ := hq p (by simp)
    rw [List.mapM_cons, hb, ih (fun x hx => hq x (by simp [hx]))]
    cases b <;> simp [bind, Except.bind, pure, Except.pure, hb]

/-- What the three scores are, in terms of the answers on the pairs `l`. -/
def IsScores (l : List (α × α)) (P Q : α → α → Prop) (s : Scores) : Prop :=
  ∃ (_ : ∀ a b, Decidable (P a b)) (_ : ∀ a b, Decidable (Q a b)),
    s.precision = (l.countP (fun p => decide (P p.1 p.2 ∧ Q p.1 p.2)) : ℚ) / l.countP (fun p => decide (Q p.1 p.2)) ∧
    s.recall = (l.countP (fun p => decide (P p.1 p.2 ∧ Q p.1 p.2)) : ℚ) / l.countP (fun p => decide (P p.1 p.2)) ∧
    s.f1 = 2 * (l.countP (fun p => decide (P p.1 p.2 ∧ Q p.1 p.2)) : ℚ) /
      (l.countP (fun p => decide (P p.1 p.2)) + l.countP (fun p => decide (Q p.1 p.2)))

omit [DecidableEq α] in
theorem scores_spec (l : List (α × α)) (P Q : α → α → Prop) [∀ a b, Decidable (P a b)] [∀ a b, Decidable (Q a b)] :
    IsScores l P Q (scores (l.map (fun p => decide (P p.1 p.2))) (l.map (fun p => decide (Q p.1 p.2)))) := by
  have e1 : tp (l.map (fun p => decide (P p.1 p.2))) (l.map (fun p => decide (Q p.1 p.2))) =
      l.countP (fun p => decide (P p.1 p.2 ∧ Q p.1 p.2)) := by
    unfold tp
    induction l with
    | nil => rfl
    | cons a l ih =>
      simp only [List.map_cons, List.zip_cons_cons, List.filter_cons, List.countP_cons, ← ih]
      by_cases h1 : P a.1 a.2 <;> by_cases h2 : Q a.1 a.2 <;> simp [h1, h2]
  have e2 : ∀ (R : α → α → Prop) [∀ a b, Decidable (R a b)], pos (l.map (fun p => decide (R p.1 p.2))) =
      l.countP (fun p => decide (R p.1 p.2)) := by
    intro R _
    unfold pos
    rw [← List.countP_eq_length_filter, List.countP_map]
    rfl
  refine ⟨inferInstance, inferInstance, ?_, ?_, ?_⟩
  · show precisionScore _ _ = _
    unfold precisionScore
    rw [e1, e2 Q]
    split_ifs with hz
    · rw [hz]; simp
    · rfl
  · show recallScore _ _ = _
    unfold recallScore
    rw [e1, e2 P]
    split_ifs with hz
    · rw [hz]; simp
    · rfl
  · show f1Score _ _ = _
    unfold f1Score
    rw [e1, e2 P, e2 Q]
    split_ifs with hz
    · rw [show l.countP (fun p => decide (P p.1 p.2)) = 0 by omega, show l.countP (fun p => decide (Q p.1 p.2)) = 0 by omega]
      simp
    · push_cast; rfl

omit [DecidableEq α] in
theorem countP_and_le {P Q : α → α → Prop} {_ : ∀ a b, Decidable (P a b)} {_ : ∀ a b, Decidable (Q a b)} (l : List (α × α)) :
    l.countP (fun p => decide (P p.1 p.2 ∧ Q p.1 p.2)) ≤ l.countP (fun p => decide (P p.1 p.2)) ∧
    l.countP (fun p => decide (P p.1 p.2 ∧ Q p.1 p.2)) ≤ l.countP (fun p => decide (Q p.1 p.2)) := by
  constructor <;> apply List.countP_mono_left <;> intro p _ hp <;> simp_all

omit [DecidableEq α] in
theorem IsScores.range {l : List (α × α)} {P Q : α → α → Prop} {s : Scores} (hs : IsScores l P Q s) :
    0 ≤ s.precision ∧ s.precision ≤ 1 ∧ 0 ≤ s.recall ∧ s.recall ≤ 1 ∧ 0 ≤ s.f1 ∧ s.f1 ≤ 1 := by
  obtain ⟨_, _, h1, h2, h3⟩ := hs
  obtain ⟨c1, c2⟩ := countP_and_le (P := P) (Q := Q) l
  have c1' := (Nat.cast_le (α := ℚ)).2 c1
  have c2' := (Nat.cast_le (α := ℚ)).2 c2
  rw [h1, h2, h3]
  refine ⟨div_nonneg (Nat.cast_nonneg _) (Nat.cast_nonneg _), ?_, div_nonneg (Nat.cast_nonneg _) (Nat.cast_nonneg _), ?_,
    div_nonneg (mul_nonneg (by norm_num) (Nat.cast_nonneg _)) (add_nonneg (Nat.cast_nonneg _) (Nat.cast_nonneg _)), ?_⟩
  · exact div_le_one_of_le₀ c2' (by positivity)
  · exact div_le_one_of_le₀ c1' (by positivity)
  · exact div_le_one_of_le₀ (by linarith) (by positivity)

omit [DecidableEq α] in
theorem countP_eq_imp {P R : α × α → Bool} {l : List (α × α)} (himp : ∀ p, R p = true → P p = true)
    (he : l.countP R = l.countP P) : ∀ p ∈ l, P p = true → R p = true := by
  induction l with
  | nil => simp
  | cons a l ih =>
    have hle := List.countP_mono_left (l := l) (p := R) (q := P) (fun x _ => himp x)
    simp only [List.countP_cons] at he
    have ha := himp a
    have h2 : l.countP R = l.countP P ∧ (P a = true → R a = true) := by
      cases hr : R a <;> cases hq : P a <;> simp [hr, hq] at he ha ⊢ <;> omega
    intro p hp hpp
    rcases List.mem_cons.1 hp with rfl | hp
    · exact h2.2 hpp
    · exact ih h2.1 p hp hpp

omit [DecidableEq α] in
theorem IsScores.perfect {l : List (α × α)} {P Q : α → α → Prop} {s : Scores} (hs : IsScores l P Q s) :
    (s.precision = 1 ∧ s.recall = 1 ↔ (∃ p ∈ l, P p.1 p.2) ∧ ∀ p ∈ l, P p.1 p.2 ↔ Q p.1 p.2) ∧
    (s.f1 = 1 ↔ s.precision = 1 ∧ s.recall = 1) := by
  obtain ⟨_, _, h1, h2, h3⟩ := hs
  obtain ⟨c1, c2⟩ := countP_and_le (P := P) (Q := Q) l
  have a1 : s.precision = 1 ↔ 0 < l.countP (fun p => decide (Q p.1 p.2)) ∧
      l.countP (fun p => decide (P p.1 p.2 ∧ Q p.1 p.2)) = l.countP (fun p => decide (Q p.1 p.2)) := by
    rw [h1]
    rcases Nat.eq_zero_or_pos (l.countP (fun p => decide (Q p.1 p.2))) with hz | hz
    · rw [hz]; simp
    · rw [div_eq_one_iff_eq (by positivity), Nat.cast_inj]
      exact ⟨fun h => ⟨hz, h⟩, fun h => h.2⟩
  have a2 : s.recall = 1 ↔ 0 < l.countP (fun p => decide (P p.1 p.2)) ∧
      l.countP (fun p => decide (P p.1 p.2 ∧ Q p.1 p.2)) = l.countP (fun p => decide (P p.1 p.2)) := by
    rw [h2]
    rcases Nat.eq_zero_or_pos (l.countP (fun p => decide (P p.1 p.2))) with hz | hz
    · rw [hz]; simp
    · rw [div_eq_one_iff_eq (by positivity), Nat.cast_inj]
      exact ⟨fun h => ⟨hz, h⟩, fun h => h.2⟩
  constructor
  · rw [a1, a2]
    constructor
    · rintro ⟨⟨_, e1⟩, p2, e2⟩
      obtain ⟨p, hp, hpp⟩ := List.countP_pos_iff.1 p2
      refine ⟨⟨p, hp, by simpa using hpp⟩, fun p hp => ⟨fun h => ?_, fun h => ?_⟩⟩
      · have := countP_eq_imp (fun p hp => by simp_all) e2 p hp (by simpa using h)
        simp at this; exact this.2
      · have := countP_eq_imp (fun p hp => by simp_all) e1 p hp (by simpa using h)
        simp at this; exact this.1
    · rintro ⟨⟨p, hp, hpp⟩, hall⟩
      have e1 : l.countP (fun p => decide (P p.1 p.2 ∧ Q p.1 p.2)) = l.countP (fun p => decide (Q p.1 p.2)) :=
        List.countP_congr (fun q hq => by simp [hall q hq])
      have e2 : l.countP (fun p => decide (P p.1 p.2 ∧ Q p.1 p.2)) = l.countP (fun p => decide (P p.1 p.2)) :=
        List.countP_congr (fun q hq => by simp [hall q hq])
      exact ⟨⟨List.countP_pos_iff.2 ⟨p, hp, by simpa using (hall p hp).1 hpp⟩, e1⟩,
        List.countP_pos_iff.2 ⟨p, hp, by simpa using hpp⟩, e2⟩
  · rw [a1, a2, h3]
    rcases Nat.eq_zero_or_pos (l.countP (fun p => decide (P p.1 p.2)) + l.countP (fun p => decide (Q p.1 p.2))) with hz | hz
    · rw [show l.countP (fun p => decide (P p.1 p.2)) = 0 by omega, show l.countP (fun p => decide (Q p.1 p.2)) = 0 by omega]
      simp
    · rw [div_eq_one_iff_eq (by exact_mod_cast hz.ne')]
      constructor
      · intro he
        have he : 2 * l.countP (fun p => decide (P p.1 p.2 ∧ Q p.1 p.2)) =
          l.countP (fun p => decide (P p.1 p.2)) + l.countP (fun p => decide (Q p.1 p.2)) := by exact_mod_cast he
        omega
      · rintro ⟨⟨_, e1⟩, _, e2⟩
        have : 2 * l.countP (fun p => decide (P p.1 p.2 ∧ Q p.1 p.2)) =
          l.countP (fun p => decide (P p.1 p.2)) + l.countP (fun p => decide (Q p.1 p.2)) := by omega
        exact_mod_cast this

/-- The claims of C37 about an evaluation function `ev` counting the pairs in `l` with a property `R`. -/
def EvalClaims (ev : Graph α → Graph α → Except Err Scores) (l : List (α × α)) (R : Graph α → α → α → Prop)
    (g h : Graph α) : Prop :=
  ∃ s, ev g h = .ok s ∧ ev h g = .ok ⟨s.recall, s.precision, s.f1⟩ ∧ IsScores l (R g) (R h) s ∧
    (0 ≤ s.precision ∧ s.precision ≤ 1 ∧ 0 ≤ s.recall ∧ s.recall ≤ 1 ∧ 0 ≤ s.f1 ∧ s.f1 ≤ 1) ∧
    (s.precision = 1 ∧ s.recall = 1 ↔ (∃ p ∈ l, R g p.1 p.2) ∧ ∀ p ∈ l, R g p.1 p.2 ↔ R h p.1 p.2) ∧
    (s.f1 = 1 ↔ s.precision = 1 ∧ s.recall = 1)

theorem tp_comm (t e : List Bool) : tp t e = tp e t := by
  unfold tp
  induction t generalizing e with
  | nil => cases e <;> rfl
  | cons a t ih =>
    cases e with
    | nil => rfl
    | cons b e =>
      simp only [List.zip_cons_cons, List.filter_cons, Bool.and_comm b a]
      split_ifs <;> simp [ih e]

theorem scores_swap (t e : List Bool) : scores e t = ⟨(scores t e).recall, (scores t e).precision, (scores t e).f1⟩ := by
  unfold scores
  simp only [Scores.mk.injEq]
  refine ⟨?_, ?_, ?_⟩
  · unfold precisionScore recallScore; rw [tp_comm]
  · unfold precisionScore recallScore; rw [tp_comm]
  · unfold f1Score; rw [tp_comm, Nat.add_comm (pos e)]

omit [DecidableEq α] in
theorem evalClaims_of {q : Graph α → α → α → Except Err Bool} {ev : Graph α → Graph α → Except Err Scores} {l : List (α × α)}
    (h1 : ∀ p ∈ l, ∃ b, q g p.1 p.2 = .ok b) (h2 : ∀ p ∈ l, ∃ b, q h p.1 p.2 = .ok b)
    (e1 : ev g h = (do let t ← ask (q g) l; let e ← ask (q h) l; pure (scores t e)))
    (e2 : ev h g = (do let t ← ask (q h) l; let e ← ask (q g) l; pure (scores t e))) :
    EvalClaims ev l (fun g a b => q g a b = .ok true) g h := by
  rw [ask_ok _ _ h1, ask_ok _ _ h2] at e1 e2
  have hs := scores_spec l (fun a b => q g a b = .ok true) (fun a b => q h a b = .ok true)
  refine ⟨_, e1, ?_, hs, hs.range, hs.perfect.1, hs.perfect.2⟩
  rw [e2, ← scores_swap]
  rfl

/-- **C37, adjacencies.** -/
theorem c37_skeleton (hg : Reachable k g) (hh : Reachable k h) (hn : g.nodes = h.nodes) :
    EvalClaims skeletonEvaluation (pairs g.nodes) (fun g a b => g.isConnected a b = .ok true) g h := by
  have hk := hg.good.2.trans hh.good.2.symm
  apply evalClaims_of (q := Graph.isConnected)
  · intro p hp; exact ⟨_, isConnected_ok hg.good.1.wf (mem_pairs_mem hp).1 (mem_pairs_mem hp).2⟩
  · intro p hp; rw [hn] at hp; exact ⟨_, isConnected_ok hh.good.1.wf (mem_pairs_mem hp).1 (mem_pairs_mem hp).2⟩
  · unfold skeletonEvaluation; rw [missMatch_ok hk hn, ← hn]; rfl
  · unfold skeletonEvaluation; rw [missMatch_ok hk.symm hn.symm, ← hn]; rfl

/-- **C37, arrowheads.** -/
theorem c37_arrow (hg : Reachable k g) (hh : Reachable k h) (hn : g.nodes = h.nodes) :
    EvalClaims arrowEvaluation (perms2 g.nodes) (fun g a b => g.isArrow a b = .ok true) g h := by
  have hk := hg.good.2.trans hh.good.2.symm
  apply evalClaims_of (q := Graph.isArrow)
  · rintro ⟨a, b⟩ hp
    have := (mem_perms2 hg.good.1.wf.nodup a b).1 hp
    exact ⟨_, hasMark_ok hg.good.1.wf _ this.1 this.2.1⟩
  · rintro ⟨a, b⟩ hp
    rw [hn] at hp
    have := (mem_perms2 hh.good.1.wf.nodup a b).1 hp
    exact ⟨_, hasMark_ok hh.good.1.wf _ this.1 this.2.1⟩
  · unfold arrowEvaluation; rw [missMatch_ok hk hn, ← hn]; rfl
  · unfold arrowEvaluation; rw [missMatch_ok hk.symm hn.symm, ← hn]; rfl

/-- **C37, directed edges.** -/
theorem c37_directed (hg : Reachable k g) (hh : Reachable k h) (hn : g.nodes = h.nodes) :
    EvalClaims directedEdgeEvaluation (perms2 g.nodes) (fun g a b => g.isFullyDirected a b = .ok true) g h := by
  have hk := hg.good.2.trans hh.good.2.symm
  apply evalClaims_of (q := Graph.isFullyDirected)
  · rintro ⟨a, b⟩ hp
    have := (mem_perms2 hg.good.1.wf.nodup a b).1 hp
    exact ⟨_, isFullyDirected_ok hg.good.1.wf this.1 this.2.1⟩
  · rintro ⟨a, b⟩ hp
    rw [hn] at hp
    have := (mem_perms2 hh.good.1.wf.nodup a b).1 hp
    exact ⟨_, isFullyDirected_ok hh.good.1.wf this.1 this.2.1⟩
  · unfold directedEdgeEvaluation; rw [missMatch_ok hk hn, ← hn]; rfl
  · unfold directedEdgeEvaluation; rw [missMatch_ok hk.symm hn.symm, ← hn]; rfl

end

section examples

/-- Two PDAGs that differ in one edge: 3 - 4 against 3 -> 4; and one that differs in two. -/
def exA : Graph Nat := built .pdag [1, 2, 3, 4] [dE 1 3, dE 2 3, uE 3 4]
def exB : Graph Nat := built .pdag [1, 2, 3, 4] [dE 1 3, dE 2 3, dE 3 4]
def exC : Graph Nat := built .pdag [1, 2, 3, 4] [dE 1 3, dE 3 4, uE 1 2]

theorem exA_reachable : Reachable .pdag exA := (built_reachable _ _ _ (by decide) (by decide)).reachable
theorem exB_reachable : Reachable .pdag exB := (built_reachable _ _ _ (by decide) (by decide)).reachable
theorem exC_reachable : Reachable .pdag exC := (built_reachable _ _ _ (by decide) (by decide)).reachable

example := c06_graph_equal (by decide) exA_reachable exB_reachable rfl
example := c36_triangle exA_reachable exB_reachable exC_reachable rfl rfl
example : exA.graphEqual exB = .ok false ∧ exA.shd exB = .ok 1 ∧ exB.shd exC = .ok 2 ∧ exA.shd exC = .ok 3 := by decide +kernel
example : ∃ g', exA.addEdge (dE 4 1) false = .ok g' ∧ g'.shd exB = .ok 2 := ⟨_, rfl, by decide +kernel⟩
example := c37_skeleton exA_reachable exC_reachable rfl
example : (exA.skeletonEvaluation exC = .ok ⟨2 / 3, 2 / 3, 2 / 3⟩) ∧ exA.arrowEvaluation exC = .ok ⟨1 / 2, 1 / 2, 1 / 2⟩ ∧
    exA.directedEdgeEvaluation exB = .ok ⟨2 / 3, 1, 4 / 5⟩ := by decide +kernel

/-- `graph_equal` cannot tell an edge with Null marks from no edge in a plain `Graph` object. -/
theorem c06_plain_graph_false : ∃ g h : Graph Nat, Reachable .graph g ∧ Reachable .graph h ∧ g.nodes = h.nodes ∧
    g.graphEqual h = .ok true ∧ g.isConnected 1 2 = .ok true ∧ h.isConnected 1 2 = .ok false :=
  ⟨built .graph [1, 2] [⟨1, 2, .null, .null⟩], built .graph [1, 2] [],
    (built_reachable _ _ _ (by decide) (by decide)).reachable, (built_reachable _ _ _ (by decide) (by decide)).reachable,
    rfl, by decide +kernel, by decide +kernel, by decide +kernel⟩

end examples
end Cdmir
