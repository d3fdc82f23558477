import Verif.Lemmas.GES
import Verif.Spec.GES
import Mathlib.Tactic.Linarith

/-! The validity tests, the record of scores and the passes of GES. -/

set_option linter.unusedSectionVars false

namespace Cdmir
namespace GES
open Graph Spec
variable {α : Type} [DecidableEq α] {K : Type} [Field K] [LinearOrder K] [IsStrictOrderedRing K] {g : Graph α}

/-- Loops with an invariant that knows the elements already done. -/
theorem foldlM_pre {σ β : Type} {f : σ → β → Except Err σ} {P : List β → σ → Prop} (l : List β)
    (h : ∀ pre x s, pre ++ [x] <+: l → P pre s → OkP (P (pre ++ [x])) (f s x)) (s : σ) (hs : P [] s) :
    OkP (P l) (l.foldlM f s) := by
  suffices H : ∀ (post pre : List β) (s : σ), pre ++ post = l → P pre s → OkP (P l) (post.foldlM f s) from H l [] s rfl hs
  intro post
  induction post with
  | nil => intro pre s e hs; simp only [List.append_nil] at e; subst e; exact ⟨s, rfl, hs⟩
  | cons x t ih =>
    intro pre s e hs
    obtain ⟨s1, e1, h1⟩ := h pre x s ⟨t, by simpa using e⟩ hs
    rw [List.foldlM_cons, e1]
    exact ih (pre ++ [x]) s1 (by simpa using e) h1

open Classical in
theorem adjacentTo_ok (hw : g.WF) {i : α} (hi : i ∈ g.nodeList) :
    adjacentTo g i = .ok (g.nodeList.filter (fun v => Conn g i v)) :=
  filterE_ok _ _ _ (fun _ hv => ic_dec hw hi hv)

open Classical in
/-- Pure form of the set `NA`: proof device. -/
noncomputable def naList (g : Graph α) (i j : α) : List α := g.nodeList.filter (fun v => NA g i j v)

theorem mem_naList (hw : g.WF) (i j v : α) : v ∈ naList g i j ↔ NA g i j v := by
  unfold naList
  simp only [List.mem_filter, decide_eq_true_eq, and_iff_right_iff_imp]
  exact fun k => (Conn.mem hw k.2).2

theorem naSet_ok (h : DU g) {i j : α} (hi : i ∈ g.nodeList) (hj : j ∈ g.nodeList) : naSet g i j = .ok (naList g i j) := by
  classical
  unfold naSet naList
  rw [tailBoth_ok h hj, adjacentTo_ok h.wf hi]
  simp only [bind, Except.bind, pure, Except.pure, List.filter_filter]
  congr 1
  refine List.filter_congr (fun y hy => ?_)
  simp [List.mem_filter, NA, hy, and_comm]

open Classical in
/-- Pure form of the parents: proof device. -/
noncomputable def paList (g : Graph α) (j : α) : List α := g.nodeList.filter (fun v => Dir g v j)

theorem mem_paList (hw : g.WF) (j v : α) : v ∈ paList g j ↔ Dir g v j := by
  unfold paList
  simp only [List.mem_filter, decide_eq_true_eq, and_iff_right_iff_imp]
  exact fun k => (Conn.mem hw (Dir.conn hw k)).1

theorem arrowsInto_ok (h : DU g) {j : α} (hj : j ∈ g.nodeList) : arrowsInto g j = .ok (paList g j) :=
  filterE_ok _ _ _ (fun _ hv => h.isArrow hv hj)

theorem union1d_nodup (hw : g.WF) (a b : List α) : (union1d g a b).Nodup := hw.nodup.filter _

theorem mem_union1d (g : Graph α) (a b : List α) (v : α) : v ∈ union1d g a b ↔ v ∈ g.nodeList ∧ (v ∈ a ∨ v ∈ b) := by
  unfold union1d
  simp [Graph.nodes]

/-- `NA ∪ T`: proof device. -/
def NAT (g : Graph α) (i j : α) (t : List α) (v : α) : Prop := NA g i j v ∨ v ∈ t

theorem mem_nat (hw : g.WF) {i j : α} {t : List α} (ht : ∀ x ∈ t, x ∈ g.nodeList) (v : α) :
    v ∈ union1d g (naList g i j) t ↔ NAT g i j t v := by
  rw [mem_union1d, mem_naList hw]
  exact ⟨fun k => k.2, fun k => ⟨k.elim (fun k => (Conn.mem hw k.2).2) (ht v), k⟩⟩

open Classical in
theorem insertValid1_ok (h : DU g) {i j : α} (hi : i ∈ g.nodeList) (hj : j ∈ g.nodeList) {t : List α}
    (ht : ∀ x ∈ t, x ∈ g.nodeList) : insertValid1 g i j t = .ok (decide (Clique g (NAT g i j t))) := by
  unfold insertValid1
  rw [naSet_ok h hi hj]
  simp only [bind, Except.bind]
  rw [checkClique_ok h.rs (union1d_nodup h.wf _ _)]
  congr 1
  refine decide_eq_decide.2 ?_
  simp only [mem_nat h.wf ht, Clique]
  exact ⟨fun k a b ha hb => k a ha b hb, fun k a ha b hb => k a b ha hb⟩

/-- Every semi-directed path is met: proof device. -/
def Blocks (g : Graph α) (i j : α) (t : List α) : Prop := ¬ Bad g i (union1d g (naList g i j) t) j []

open Classical in
theorem insertValid2_ok (h : DU g) {i j : α} (hi : i ∈ g.nodeList) (hj : j ∈ g.nodeList) {t : List α} {n : Nat}
    (hn : vC2Bound g.nodeList.length ≤ n) : insertValid2 n g i j t = .ok (decide (Blocks g i j t)) := by
  unfold insertValid2
  rw [naSet_ok h hi hj]
  simp only [bind, Except.bind]
  rw [insertVC2_ok h hj _ hn]
  congr 1
  exact decide_eq_decide.2 Iff.rfl

theorem bad_iff {t x : α} {nat : List α} : Bad g t nat x [] ↔ ∃ p, SemiPath g p x t ∧ ∀ y ∈ p, y ≠ t → y ∉ nat := by
  unfold Bad SemiPath
  simp only [List.reverse_nil, List.nil_append, List.isChain_iff_forall_rel_of_append_cons_cons]
  constructor
  · rintro ⟨q, h1, h2, h3, h4, h5⟩
    refine ⟨q, ⟨h4, h1, h2, ?_⟩, h5⟩
    rintro a b ⟨l1, l2, e⟩
    exact h3 (l₁ := l1) (l₂ := l2) (by rw [← e]; simp)
  · rintro ⟨q, ⟨h4, h1, h2, h3⟩, h5⟩
    refine ⟨q, h1, h2, ?_, h4, h5⟩
    intro a b l1 l2 e
    exact h3 a b ⟨l1, l2, by rw [e]; simp⟩

theorem blocks_iff (hw : g.WF) {i j : α} {t : List α} (ht : ∀ x ∈ t, x ∈ g.nodeList) :
    Blocks g i j t ↔ ∀ p, SemiPath g p j i → ∃ x ∈ p, x ≠ i ∧ NAT g i j t x := by
  unfold Blocks
  rw [bad_iff]
  push Not
  constructor
  · intro k p hp
    obtain ⟨y, h1, h2, h3⟩ := k p hp
    exact ⟨y, h1, h2, (mem_nat hw ht y).1 h3⟩
  · intro k p hp
    obtain ⟨y, h1, h2, h3⟩ := k p hp
    exact ⟨y, h1, h2, (mem_nat hw ht y).2 h3⟩

theorem Clique.anti {P Q : α → Prop} (h : Clique g Q) (hs : ∀ v, P v → Q v) : Clique g P :=
  fun a b ha hb => h a b (hs a ha) (hs b hb)

theorem Blocks.mono (hw : g.WF) {i j : α} {t t' : List α} (ht : ∀ x ∈ t, x ∈ g.nodeList) (ht' : ∀ x ∈ t', x ∈ g.nodeList)
    (h : Blocks g i j t) (hs : ∀ x ∈ t, x ∈ t') : Blocks g i j t' := by
  rw [blocks_iff hw ht] at h
  rw [blocks_iff hw ht']
  intro p hp
  obtain ⟨x, h1, h2, h3⟩ := h p hp
  exact ⟨x, h1, h2, h3.imp id (hs x)⟩

open Classical in
theorem deleteValid_ok (h : DU g) {so : List α → List α} (hso : ∀ l, (so l).Perm l) {i j : α} (hi : i ∈ g.nodeList)
    (hj : j ∈ g.nodeList) (t : List α) :
    deleteValid so g i j t = .ok (decide (Clique g (fun v => NA g i j v ∧ v ∉ t))) := by
  unfold deleteValid
  rw [naSet_ok h hi hj]
  simp only [bind, Except.bind]
  have hnd : (so ((naList g i j).filter (fun v => v ∉ t))).Nodup :=
    (hso _).nodup_iff.2 ((h.wf.nodup.filter _).filter _)
  rw [checkClique_ok h.rs hnd]
  congr 1
  refine decide_eq_decide.2 ?_
  simp only [(hso _).mem_iff, List.mem_filter, mem_naList h.wf, decide_eq_true_eq, Clique]
  exact ⟨fun k a b ha hb => k a ha b hb, fun k a ha b hb => k a b ha hb⟩

/-! ### the record -/

/-- Every entry of the record is right: proof device. -/
def RecOK (score : α → List α → K) (r : Record α K) : Prop :=
  ∀ j e, e ∈ r j → (∃ l : List α, l.Nodup ∧ e.1 = l.map some ∧ e.2 = score j l) ∨ (e.1 = [none] ∧ e.2 = score j [])

theorem sameSet_iff {β : Type} [DecidableEq β] (a b : List β) : sameSet a b = true ↔ ∀ x, x ∈ a ↔ x ∈ b := by
  unfold sameSet
  simp only [Bool.and_eq_true, List.all_eq_true, decide_eq_true_eq]
  exact ⟨fun k x => ⟨k.1 x, k.2 x⟩, fun k => ⟨fun x => (k x).1, fun x => (k x).2⟩⟩

omit [DecidableEq α] in
theorem recordLoop_ok {m1 m2 : List (Option α) → Bool} {v1 v2 : K} (l : List (Entry α K))
    (h1 : ∀ e ∈ l, m1 e.1 = true → e.2 = v1) (h2 : ∀ e ∈ l, m2 e.1 = true → e.2 = v2) (s : Option K × Option K)
    (hs : (s.1 = none ∨ s.1 = some v1) ∧ (s.2 = none ∨ s.2 = some v2)) :
    ((recordLoop m1 m2 l s).1 = none ∨ (recordLoop m1 m2 l s).1 = some v1) ∧
      ((recordLoop m1 m2 l s).2 = none ∨ (recordLoop m1 m2 l s).2 = some v2) := by
  induction l generalizing s with
  | nil => exact hs
  | cons e t ih =>
    obtain ⟨k, v⟩ := e
    obtain ⟨s1, s2⟩ := s
    have hs' : ((if m1 k then some v else s1) = none ∨ (if m1 k then some v else s1) = some v1) ∧
        ((if m2 k then some v else s2) = none ∨ (if m2 k then some v else s2) = some v2) := by
      constructor
      · split_ifs with c
        · right; exact congrArg some (h1 (k, v) (by simp) c)
        · exact hs.1
      · split_ifs with c
        · right; exact congrArg some (h2 (k, v) (by simp) c)
        · exact hs.2
    unfold recordLoop
    simp only
    generalize (if m1 k then some v else s1) = a1 at hs' ⊢
    generalize (if m2 k then some v else s2) = a2 at hs' ⊢
    split
    · exact hs'
    · exact ih (fun e he => h1 e (by simp [he])) (fun e he => h2 e (by simp [he])) (a1, a2) hs'

theorem RecOK.push {score : α → List α → K} {r : Record α K} (h : RecOK score r) {j : α} {e : Entry α K}
    (he : (∃ l : List α, l.Nodup ∧ e.1 = l.map some ∧ e.2 = score j l) ∨ (e.1 = [none] ∧ e.2 = score j [])) :
    RecOK score (r.push j e) := by
  intro x e' h'
  unfold Record.push at h'
  split_ifs at h' with c
  · subst c
    rcases List.mem_append.1 h' with k | k
    · exact h _ _ k
    · rw [List.mem_singleton.1 k]; exact he
  · exact h _ _ h'

theorem recordedChange_ok {score : α → List α → K} (hsc : SetScore score) {r : Record α K} (hr : RecOK score r) (j : α)
    {p1 l1 p2 l2 : List α} (n1 : l1.Nodup) (n2 : l2.Nodup) (e1 : ∀ x, x ∈ l1 ↔ x ∈ p1) (e2 : ∀ x, x ∈ l2 ↔ x ∈ p2) :
    (recordedChange score j p1 l1 p2 l2 r).1 = score j l1 - score j l2 ∧
      RecOK score (recordedChange score j p1 l1 p2 l2 r).2 := by
  have key : ∀ (e : Entry α K), e ∈ r j → ∀ p l : List α, l.Nodup → (∀ x, x ∈ l ↔ x ∈ p) → sameSet e.1 (p.map some) = true →
      e.2 = score j l := by
    intro e he p l hl hp hs
    rw [sameSet_iff] at hs
    rcases hr j e he with ⟨l', n', a, b⟩ | ⟨a, b⟩
    · rw [b]
      refine hsc j l' l n' hl (fun x => ?_)
      have := hs (some x)
      rw [a] at this
      simp only [List.mem_map, Option.some.injEq, exists_eq_right] at this
      rw [hp, this]
    · have := (hs none).1 (by rw [a]; simp)
      simp at this
  unfold recordedChange
  dsimp only
  have hl := recordLoop_ok (m1 := fun k => sameSet k (p1.map some))
    (m2 := fun k => sameSet k (p2.map some) || (sameSet k [none] && p2.length = 0)) (v1 := score j l1) (v2 := score j l2) (r j)
    (fun e he hm => key e he p1 l1 n1 e1 hm) (fun e he hm => by
      simp only [Bool.or_eq_true, Bool.and_eq_true, decide_eq_true_eq] at hm
      rcases hm with hm | ⟨hm, hz⟩
      · exact key e he p2 l2 n2 e2 hm
      · rw [List.length_eq_zero_iff] at hz
        have hl2 : l2 = [] := List.eq_nil_iff_forall_not_mem.2 (fun x hx => by rw [e2, hz] at hx; simp at hx)
        rw [hl2]
        rw [sameSet_iff] at hm
        rcases hr j e he with ⟨l', n', a, b⟩ | ⟨a, b⟩
        · have := (hm none).2 (by simp)
          rw [a] at this
          simp at this
        · exact b) (none, none) (by simp)
  generalize recordLoop (fun k => sameSet k (p1.map some))
    (fun k => sameSet k (p2.map some) || (sameSet k [none] && p2.length = 0)) (r j) (none, none) = s at hl ⊢
  obtain ⟨s1, s2⟩ := s
  simp only at hl ⊢
  have p1' : ∀ r, RecOK score r → RecOK score (r.push j (l1.map some, score j l1)) := fun r h => h.push (Or.inl ⟨l1, n1, rfl, rfl⟩)
  have p2' : ∀ r, RecOK score r →
      RecOK score (r.push j (if l2.length ≠ 0 then l2.map some else [none], score j l2)) := by
    intro r h
    refine h.push ?_
    split_ifs with c
    · exact Or.inl ⟨l2, n2, rfl, rfl⟩
    · right
      push Not at c
      rw [List.length_eq_zero_iff] at c
      subst c
      exact ⟨rfl, rfl⟩
  obtain ⟨h1 | h1, h2 | h2⟩ := hl <;> subst h1 h2
  · exact ⟨rfl, p2' _ (p1' _ hr)⟩
  · exact ⟨rfl, p1' _ hr⟩
  · exact ⟨rfl, p2' _ hr⟩
  · exact ⟨rfl, hr⟩

/-- Score change of an insertion, in pure form: proof device. -/
noncomputable def insDelta (score : α → List α → K) (g : Graph α) (i j : α) (t : List α) : K :=
  let a := union1d g (union1d g (naList g i j) t) (paList g j)
  score j (union1d g a [i]) - score j a

theorem insertChange_ok (h : DU g) {score : α → List α → K} (hsc : SetScore score) {r : Record α K} (hr : RecOK score r)
    {i j : α} (hi : i ∈ g.nodeList) (hj : j ∈ g.nodeList) (t : List α) :
    ∃ r', insertChange score g i j t r = .ok (insDelta score g i j t, r') ∧ RecOK score r' := by
  unfold insertChange
  rw [naSet_ok h hi hj, arrowsInto_ok h hj]
  simp only [bind, Except.bind, pure, Except.pure]
  obtain ⟨h1, h2⟩ := recordedChange_ok hsc hr j (union1d_nodup h.wf _ _) (union1d_nodup h.wf _ _) (fun x => Iff.rfl)
    (fun x => Iff.rfl) (l1 := union1d g (union1d g (union1d g (naList g i j) t) (paList g j)) [i])
    (l2 := union1d g (union1d g (naList g i j) t) (paList g j))
  exact ⟨_, by rw [← Prod.eta (recordedChange _ _ _ _ _ _ _), h1]; rfl, h2⟩

theorem insDelta_spec (h : DU g) {score : α → List α → K} (hsc : SetScore score) {i j : α} (hi : i ∈ g.nodeList) {t : List α}
    (ht : ∀ x ∈ t, x ∈ g.nodeList) : InsertChange score g i j t (insDelta score g i j t) := by
  intro A B nA nB hA hB
  have ma : ∀ x, x ∈ union1d g (union1d g (naList g i j) t) (paList g j) ↔ x ∈ A := by
    intro x
    rw [mem_union1d, mem_nat h.wf ht, mem_paList h.wf, hA, ← or_assoc]
    refine ⟨fun k => k.2, fun k => ⟨?_, k⟩⟩
    rcases k with (k | k) | k
    · exact (Conn.mem h.wf k.2).2
    · exact ht x k
    · exact (Conn.mem h.wf (Dir.conn h.wf k)).1
  unfold insDelta
  simp only
  rw [hsc j _ A (union1d_nodup h.wf _ _) nA ma, hsc j _ B (union1d_nodup h.wf _ _) nB]
  intro x
  rw [mem_union1d, ma, hB, List.mem_singleton]
  refine ⟨fun k => k.2, fun k => ⟨?_, k⟩⟩
  rcases k with k | rfl
  · rw [← ma, mem_union1d] at k; exact k.1
  · exact hi

/-- Score change of a deletion, in pure form: proof device. -/
noncomputable def delDelta (score : α → List α → K) (g : Graph α) (i j : α) (t : List α) : K :=
  let b := pyUnion ((naList g i j).filter (fun v => v ∉ t)) (union1d g (paList g j) [i])
  score j (b.filter (fun v => v ≠ i)) - score j b

theorem deleteChange_ok (h : DU g) {so : List α → List α} (hso : ∀ l, (so l).Perm l) {score : α → List α → K}
    (hsc : SetScore score) {r : Record α K} (hr : RecOK score r) {i j : α} (hi : i ∈ g.nodeList) (hj : j ∈ g.nodeList)
    (t : List α) :
    ∃ r', deleteChange so score g i j t r = .ok (delDelta score g i j t, r') ∧ RecOK score r' := by
  unfold deleteChange
  rw [naSet_ok h hi hj, arrowsInto_ok h hj]
  simp only [bind, Except.bind, pure, Except.pure]
  have nb : (pyUnion ((naList g i j).filter (fun v => v ∉ t)) (union1d g (paList g j) [i])).Nodup :=
    pyUnion_nodup _ _ ((h.wf.nodup.filter _).filter _)
  have na := nb.filter (fun v => decide (v ≠ i))
  obtain ⟨h1, h2⟩ := recordedChange_ok hsc hr j ((hso _).nodup_iff.2 na) ((hso _).nodup_iff.2 nb)
    (fun x => (hso _).mem_iff) (fun x => (hso _).mem_iff)
  refine ⟨_, ?_, h2⟩
  rw [← Prod.eta (recordedChange _ _ _ _ _ _ _), h1, hsc j _ _ ((hso _).nodup_iff.2 na) na (fun x => (hso _).mem_iff),
    hsc j _ _ ((hso _).nodup_iff.2 nb) nb (fun x => (hso _).mem_iff)]
  rfl

theorem delDelta_spec (h : DU g) {score : α → List α → K} (hsc : SetScore score) {i j : α} (hi : i ∈ g.nodeList)
    {t : List α} : DeleteChange score g i j t (delDelta score g i j t) := by
  intro A B nA nB hA hB
  have nb : (pyUnion ((naList g i j).filter (fun v => v ∉ t)) (union1d g (paList g j) [i])).Nodup :=
    pyUnion_nodup _ _ ((h.wf.nodup.filter _).filter _)
  have mb : ∀ x, x ∈ pyUnion ((naList g i j).filter (fun v => v ∉ t)) (union1d g (paList g j) [i]) ↔
      ((NA g i j x ∧ x ∉ t) ∨ Dir g x j) ∨ x = i := by
    intro x
    simp only [mem_pyUnion, mem_union1d, mem_paList h.wf, List.mem_filter, mem_naList h.wf, List.mem_singleton,
      decide_eq_true_eq]
    constructor
    · rintro (k | ⟨_, k | k⟩)
      · exact Or.inl (Or.inl k)
      · exact Or.inl (Or.inr k)
      · exact Or.inr k
    · rintro ((k | k) | k)
      · exact Or.inl k
      · exact Or.inr ⟨(Conn.mem h.wf (Dir.conn h.wf k)).1, Or.inl k⟩
      · exact Or.inr ⟨by rw [k]; exact hi, Or.inr k⟩
  unfold delDelta
  simp only
  rw [hsc j _ B nb nB, hsc j _ A (nb.filter _) nA]
  · intro x
    simp only [List.mem_filter, mb, hA, decide_eq_true_eq]
    tauto
  · intro x
    rw [mb, hB, hA]
    tauto

end GES
end Cdmir
