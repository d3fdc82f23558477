import Verif.Lemmas.GESPass

/-! The passes of GES: the best valid operator. -/

set_option linter.unusedSectionVars false

namespace Cdmir
namespace GES
open Graph Spec
variable {α : Type} [DecidableEq α] {K : Type} [Field K] [LinearOrder K] [IsStrictOrderedRing K] {g : Graph α}

/-- The best of the operators that satisfy `P`: loop invariant. -/
structure BestInv (score : α → List α → K) (f : α × α × List α → K) (P : α × α × List α → Prop) (b : Best α K) : Prop where
  recOK : RecOK score b.record
  ge : ∀ o, P o → f o ≤ b.change
  nothing : b.op = none → b.change = -10000000
  something : ∀ o, b.op = some o → P o ∧ b.change = f o ∧ -10000000 < b.change

omit [DecidableEq α] in
theorem BestInv.congr {score : α → List α → K} {f : α × α × List α → K} {P Q : α × α × List α → Prop} {b : Best α K}
    (h : BestInv score f P b) (hpq : ∀ o, P o ↔ Q o) : BestInv score f Q b :=
  ⟨h.recOK, fun o k => h.ge o ((hpq o).2 k), h.nothing,
    fun o k => ⟨(hpq o).1 (h.something o k).1, (h.something o k).2⟩⟩

omit [DecidableEq α] in
theorem BestInv.low {score : α → List α → K} {f : α × α × List α → K} {P : α × α × List α → Prop} {b : Best α K}
    (h : BestInv score f P b) : -10000000 ≤ b.change := by
  cases e : b.op with
  | none => rw [h.nothing e]
  | some o => exact (h.something o e).2.2.le

omit [DecidableEq α] in
theorem BestInv.offer {score : α → List α → K} {f : α × α × List α → K} {P : α × α × List α → Prop} {b : Best α K}
    (h : BestInv score f P b) {i j : α} {t : List α} {r : Record α K} (hr : RecOK score r) :
    BestInv score f (fun o => P o ∨ o = (i, j, t)) (b.offer i j t (f (i, j, t), r)) := by
  unfold Best.offer
  split_ifs with c
  · refine ⟨hr, ?_, by simp, ?_⟩
    · rintro o (k | rfl)
      · exact (h.ge o k).trans (le_of_lt c)
      · exact le_rfl
    · rintro o k
      simp only [Option.some.injEq] at k
      subst k
      exact ⟨Or.inr rfl, rfl, lt_of_le_of_lt h.low c⟩
  · refine ⟨hr, ?_, h.nothing, fun o k => ⟨Or.inl (h.something o k).1, (h.something o k).2⟩⟩
    rintro o (k | rfl)
    · exact h.ge o k
    · exact not_lt.1 c

theorem mark_length {idx : List Bool} {s : List Nat} (h : idx.length = s.length) (x : Nat) : (GES.mark idx s x).length = s.length := by
  unfold GES.mark
  simp [h]

omit [DecidableEq α] in
theorem getD_lt {sub : List (List α)} {m : Nat} (hm : m < sub.length) : sub.getD m [] = sub[m] := by
  simp [List.getD_eq_getElem?_getD, hm]

open Classical in
theorem mark_getD {sub : List (List α)} {s : List Nat} (h : sub.length = s.length) (t : List α) (x d : Nat) {m : Nat}
    (hm : m < sub.length) : (GES.mark (findSubsetInclude t sub) s x).getD m d =
      if ∀ y ∈ t, y ∈ sub.getD m [] then x else s.getD m d := by
  unfold GES.mark
  rw [findSubsetInclude_eq]
  have hs : m < s.length := h ▸ hm
  simp [List.getD_eq_getElem?_getD, hm, hs]

/-- Invariant of the loop over the subsets in the forward pass: proof device. -/
structure FInv (g : Graph α) (score : α → List α → K) (i j : α) (sub : List (List α)) (P0 : α × α × List α → Prop)
    (pre : List Nat) (s : List Nat × Best α K) : Prop where
  len : s.1.length = sub.length
  le : ∀ m < sub.length, s.1.getD m 0 ≤ 2
  two : ∀ m < sub.length, s.1.getD m 0 = 2 → ¬ Clique g (NAT g i j (sub.getD m []))
  one : ∀ m < sub.length, s.1.getD m 0 = 1 → Blocks g i j (sub.getD m [])
  best : BestInv score (fun o => insDelta score g o.1 o.2.1 o.2.2)
    (fun o => P0 o ∨ ∃ m ∈ pre, o = (i, j, sub.getD m []) ∧ Clique g (NAT g i j (sub.getD m [])) ∧
      Blocks g i j (sub.getD m [])) s.2

theorem forwardSub_inv (h : DU g) {score : α → List α → K} (hsc : SetScore score) {n : Nat}
    (hn : vC2Bound g.nodeList.length ≤ n) {i j : α} (hi : i ∈ g.nodeList) (hj : j ∈ g.nodeList) {sub : List (List α)}
    (hsub : ∀ m < sub.length, ∀ x ∈ sub.getD m [], x ∈ g.nodeList) {P0 : α × α × List α → Prop} {pre : List Nat} {k : Nat}
    (hk : k < sub.length) {s : List Nat × Best α K} (hs : FInv g score i j sub P0 pre s) :
    OkP (FInv g score i j sub P0 (pre ++ [k])) (forwardSub n score g i j sub s k) := by
  classical
  have hf : ∀ t, (findSubsetInclude t sub).length = s.1.length := fun t => by
    rw [findSubsetInclude_eq, List.length_map, hs.len]
  have skip : ¬ (Clique g (NAT g i j (sub.getD k [])) ∧ Blocks g i j (sub.getD k [])) →
      ∀ o, (P0 o ∨ ∃ m ∈ pre, o = (i, j, sub.getD m []) ∧ Clique g (NAT g i j (sub.getD m [])) ∧
        Blocks g i j (sub.getD m [])) ↔ (P0 o ∨ ∃ m ∈ pre ++ [k], o = (i, j, sub.getD m []) ∧
        Clique g (NAT g i j (sub.getD m [])) ∧ Blocks g i j (sub.getD m [])) := by
    intro hv o
    refine or_congr_right ⟨fun ⟨m, a, b⟩ => ⟨m, by simp [a], b⟩, ?_⟩
    rintro ⟨m, a, b⟩
    rcases List.mem_append.1 a with a | a
    · exact ⟨m, a, b⟩
    · rw [List.mem_singleton.1 a] at b; exact absurd b.2 hv
  unfold forwardSub
  by_cases c : s.1.getD k 0 < 2
  · rw [if_pos c]
    dsimp only
    rw [insertValid1_ok h hi hj (hsub k hk)]
    simp only [bind, Except.bind]
    by_cases v1 : Clique g (NAT g i j (sub.getD k []))
    · simp only [v1, decide_true, if_true]
      have main : OkP (FInv g score i j sub P0 (pre ++ [k])) (if decide (Blocks g i j (sub.getD k [])) = true then
            (insertChange score g i j (sub.getD k []) s.2.record >>= fun v =>
              pure (GES.mark (findSubsetInclude (sub.getD k []) sub) s.1 1, s.2.offer i j (sub.getD k []) v))
          else pure s) := by
        by_cases v2 : Blocks g i j (sub.getD k [])
        · simp only [v2, decide_true, if_true]
          obtain ⟨r', e, hr'⟩ := insertChange_ok h hsc hs.best.recOK hi hj (sub.getD k [])
          rw [e]
          refine ⟨_, rfl, ⟨(mark_length (hf _) 1).trans hs.len, ?_, ?_, ?_, ?_⟩⟩
          · intro m hm
            dsimp only
            rw [mark_getD hs.len.symm _ _ _ hm]
            split_ifs
            · omega
            · exact hs.le m hm
          · intro m hm
            dsimp only
            rw [mark_getD hs.len.symm _ _ _ hm]
            split_ifs
            · omega
            · exact hs.two m hm
          · intro m hm
            dsimp only
            rw [mark_getD hs.len.symm _ _ _ hm]
            split_ifs with c2
            · exact fun _ => Blocks.mono h.wf (hsub k hk) (hsub m hm) v2 c2
            · exact hs.one m hm
          · refine (hs.best.offer (f := fun o => insDelta score g o.1 o.2.1 o.2.2) (i := i) (j := j) (t := sub.getD k [])
              hr').congr (fun o => ?_)
            constructor
            · rintro ((a | ⟨m, a, b⟩) | rfl)
              · exact Or.inl a
              · exact Or.inr ⟨m, by simp [a], b⟩
              · exact Or.inr ⟨k, by simp, rfl, v1, v2⟩
            · rintro (a | ⟨m, a, b⟩)
              · exact Or.inl (Or.inl a)
              · rcases List.mem_append.1 a with a | a
                · exact Or.inl (Or.inr ⟨m, a, b⟩)
                · rw [List.mem_singleton.1 a] at b; exact Or.inr b.1
        · simp only [v2, decide_false, Bool.false_eq_true, if_false]
          exact ⟨s, rfl, ⟨hs.len, hs.le, hs.two, hs.one, hs.best.congr (skip (fun k => v2 k.2))⟩⟩
      by_cases c0 : s.1.getD k 0 = 0
      · rw [if_pos c0, insertValid2_ok h hi hj hn]
        simp only [bind, Except.bind, pure, Except.pure] at main ⊢
        exact main
      · rw [if_neg c0]
        rw [decide_eq_true (hs.one k hk (by omega))] at main
        simp only [bind, Except.bind, pure, Except.pure] at main ⊢
        exact main
    · simp only [v1, decide_false, Bool.false_eq_true, if_false]
      refine ⟨_, rfl, ⟨(mark_length (hf _) 2).trans hs.len, ?_, ?_, ?_, hs.best.congr (skip (fun k => v1 k.1))⟩⟩
      · intro m hm
        dsimp only
        rw [mark_getD hs.len.symm _ _ _ hm]
        split_ifs
        · exact le_rfl
        · exact hs.le m hm
      · intro m hm
        dsimp only
        rw [mark_getD hs.len.symm _ _ _ hm]
        split_ifs with c2
        · exact fun _ k => v1 (Clique.anti k (fun v a => a.imp id (c2 v)))
        · exact hs.two m hm
      · intro m hm
        dsimp only
        rw [mark_getD hs.len.symm _ _ _ hm]
        split_ifs
        · omega
        · exact hs.one m hm
  · rw [if_neg c]
    have := hs.le k hk
    exact ⟨s, rfl, ⟨hs.len, hs.le, hs.two, hs.one, hs.best.congr (skip (fun k' => hs.two k hk (by omega) k'.1))⟩⟩

open Classical in
/-- Candidates for `T`, in pure form: proof device. -/
noncomputable def candT (g : Graph α) (i j : α) : List α := g.nodeList.filter (fun v => Und g v j ∧ ¬ Conn g i v)

theorem mem_candT (hw : g.WF) (i j v : α) : v ∈ candT g i j ↔ Und g v j ∧ ¬ Conn g i v := by
  unfold candT
  simp only [List.mem_filter, decide_eq_true_eq, and_iff_right_iff_imp]
  exact fun k => (Conn.mem hw (Und.conn hw k.1)).1

/-- The operators a forward pass looks at: proof device. -/
def FOp (g : Graph α) (maxP : ℚ) (o : α × α × List α) : Prop :=
  ValidInsert g maxP o.1 o.2.1 o.2.2 ∧ o.2.2.Sublist (candT g o.1 o.2.1)

theorem parents_iff (hw : g.WF) (j : α) (m : K) :
    ((paList g j).length : K) ≤ m ↔ ∀ l : List α, l.Nodup → (∀ p ∈ l, Dir g p j) → (l.length : K) ≤ m := by
  constructor
  · intro k l hl hp
    refine le_trans ?_ k
    have : l.length ≤ (paList g j).length :=
      (List.subperm_of_subset hl (fun p hp' => (mem_paList hw j p).2 (hp p hp'))).length_le
    exact_mod_cast this
  · intro k
    exact k _ (hw.nodup.filter _) (fun p hp => (mem_paList hw j p).1 hp)

theorem forwardPair_inv (h : DU g) {score : α → List α → K} (hsc : SetScore score) {maxP : ℚ} {n : Nat}
    (hn : vC2Bound g.nodeList.length ≤ n) {i j : α} (hi : i ∈ g.nodeList) (hj : j ∈ g.nodeList)
    {P0 : α × α × List α → Prop} {b : Best α K}
    (hb : BestInv score (fun o => insDelta score g o.1 o.2.1 o.2.2) P0 b) :
    OkP (BestInv score (fun o => insDelta score g o.1 o.2.1 o.2.2)
      (fun o => P0 o ∨ (o.1 = i ∧ o.2.1 = j ∧ FOp g maxP o))) (forwardPair n maxP score g b (i, j)) := by
  classical
  have skip : (∀ t, ¬ ValidInsert g maxP i j t) → ∀ o, P0 o ↔ (P0 o ∨ (o.1 = i ∧ o.2.1 = j ∧ FOp g maxP o)) := by
    rintro hv ⟨i', j', t⟩
    refine ⟨Or.inl, ?_⟩
    rintro (a | ⟨rfl, rfl, a⟩)
    · exact a
    · exact absurd a.1 (hv t)
  unfold forwardPair
  dsimp only
  rw [ic_dec h.wf hi hj]
  simp only [bind, Except.bind]
  by_cases c : ¬ Conn g i j ∧ i ≠ j
  · rw [if_pos (by simpa using c), arrowsInto_ok h hj]
    simp only
    by_cases cp : ((paList g j).length : ℚ) ≤ maxP
    · rw [if_pos cp, tailBoth_ok h hj, adjacentTo_ok h.wf hi]
      simp only
      have hc : (g.nodeList.filter (fun y => decide (Und g y j))).filter
          (fun v => decide (v ∉ g.nodeList.filter (fun v => decide (Conn g i v)))) = candT g i j := by
        unfold candT
        rw [List.filter_filter]
        refine List.filter_congr (fun y hy => ?_)
        simp [List.mem_filter, hy, and_comm]
      rw [hc]
      have hsub : ∀ m < (combinatorial (candT g i j)).length, ((combinatorial (candT g i j)).getD m []).Sublist (candT g i j) := by
        intro m hm
        rw [getD_lt hm]
        exact mem_combinatorial.1 (List.getElem_mem hm)
      have hsubn : ∀ m < (combinatorial (candT g i j)).length, ∀ x ∈ (combinatorial (candT g i j)).getD m [], x ∈ g.nodeList :=
        fun m hm x hx => (List.mem_filter.1 ((hsub m hm).subset hx)).1
      obtain ⟨s, e, hs⟩ := foldlM_pre (P := FInv g score i j (combinatorial (candT g i j)) P0)
        (f := forwardSub n score g i j (combinatorial (candT g i j))) (List.range (combinatorial (candT g i j)).length)
        (fun pre x s hx hs => forwardSub_inv h hsc hn hi hj hsubn (by
          have := hx.subset (List.mem_append_right pre (List.mem_singleton.2 rfl)); exact List.mem_range.1 this) hs)
        (List.replicate (combinatorial (candT g i j)).length 0, b)
        ⟨by simp, by intro m hm; simp [hm], by intro m hm; simp [hm],
          by intro m hm; simp [hm], hb.congr (fun o => by simp)⟩
      rw [e]
      refine ⟨_, rfl, hs.best.congr ?_⟩
      rintro ⟨i', j', t⟩
      refine or_congr_right ?_
      constructor
      · rintro ⟨m, hm, e, k1, k2⟩
        simp only [Prod.mk.injEq] at e
        obtain ⟨rfl, rfl, rfl⟩ := e
        have hm := List.mem_range.1 hm
        refine ⟨rfl, rfl, ⟨hi, hj, c.2, c.1, (parents_iff h.wf _ _).1 cp, ?_, k1, (blocks_iff h.wf (hsubn m hm)).1 k2⟩, hsub m hm⟩
        exact fun t ht => (mem_candT h.wf _ _ _).1 ((hsub m hm).subset ht)
      · rintro ⟨rfl, rfl, k, ks⟩
        dsimp only at k ks
        obtain ⟨m, hm, e⟩ := List.mem_iff_getElem.1 (mem_combinatorial.2 ks)
        have e' : (combinatorial (candT g i' j')).getD m [] = t := by rw [getD_lt hm, e]
        refine ⟨m, List.mem_range.2 hm, ?_⟩
        rw [e']
        exact ⟨rfl, k.clique, (blocks_iff h.wf (fun x hx => (Conn.mem h.wf (Und.conn h.wf (k.cand x hx).1)).1)).2 k.block⟩
    · rw [if_neg cp]
      exact ⟨b, rfl, hb.congr (skip (fun t k => cp ((parents_iff h.wf _ _).2 k.parents)))⟩
  · rw [if_neg (by simpa using c)]
    exact ⟨b, rfl, hb.congr (skip (fun t k => c ⟨k.apart, k.ne⟩))⟩

omit [DecidableEq α] in
theorem mem_allPairs {l : List α} {p : α × α} : p ∈ allPairs l ↔ p.1 ∈ l ∧ p.2 ∈ l := by
  obtain ⟨a, b⟩ := p
  unfold allPairs
  simp only [List.mem_flatMap, List.mem_map, Prod.mk.injEq]
  constructor
  · rintro ⟨x, hx, y, hy, rfl, rfl⟩; exact ⟨hx, hy⟩
  · rintro ⟨ha, hb⟩; exact ⟨a, ha, b, hb, rfl, rfl⟩

theorem forwardPass_ok (h : DU g) {score : α → List α → K} (hsc : SetScore score) (maxP : ℚ) {n : Nat}
    (hn : vC2Bound g.nodeList.length ≤ n) {r : Record α K} (hr : RecOK score r) :
    OkP (BestInv score (fun o => insDelta score g o.1 o.2.1 o.2.2) (FOp g maxP)) (forwardPass n maxP score g r) := by
  unfold forwardPass
  obtain ⟨b, e, hb⟩ := foldlM_pre (f := forwardPair n maxP score g) (P := fun pre => BestInv score (fun o => insDelta score g o.1 o.2.1 o.2.2)
    (fun o => ∃ p ∈ pre, o.1 = p.1 ∧ o.2.1 = p.2 ∧ FOp g maxP o)) (allPairs g.nodes) (by
      rintro pre ⟨i, j⟩ s hx hs
      have hm := mem_allPairs.1 (hx.subset (List.mem_append_right pre (List.mem_singleton.2 rfl)))
      obtain ⟨b, e, hb⟩ := forwardPair_inv (maxP := maxP) h hsc hn hm.1 hm.2 hs
      refine ⟨b, e, hb.congr (fun o => ?_)⟩
      simp only [List.mem_append, List.mem_singleton, or_and_right, exists_or, exists_eq_left])
    ⟨-10000000, none, r⟩ ⟨hr, by simp, by simp, by simp⟩
  refine ⟨b, e, hb.congr (fun o => ⟨fun ⟨p, _, _, _, k⟩ => k, fun k => ⟨(o.1, o.2.1), mem_allPairs.2 ⟨k.1.memi, k.1.memj⟩, rfl, rfl, k⟩⟩)⟩

/-! ### backward -/

/-- The operators a backward pass looks at: proof device. -/
def BOp (g : Graph α) (o : α × α × List α) : Prop :=
  ValidDelete g o.1 o.2.1 o.2.2 ∧ o.2.2.Sublist (naList g o.1 o.2.1)

/-- What is left of `NA` is a clique: proof device. -/
def Rest (g : Graph α) (i j : α) (t : List α) : Prop := Clique g (fun v => NA g i j v ∧ v ∉ t)

/-- Invariant of the loop over the subsets in the backward pass: proof device. -/
structure BInv (g : Graph α) (score : α → List α → K) (i j : α) (sub : List (List α)) (P0 : α × α × List α → Prop)
    (pre : List Nat) (s : List Nat × Best α K) : Prop where
  len : s.1.length = sub.length
  flag : ∀ m < sub.length, s.1.getD m 1 ≠ 1 → Rest g i j (sub.getD m [])
  best : BestInv score (fun o => delDelta score g o.1 o.2.1 o.2.2)
    (fun o => P0 o ∨ ∃ m ∈ pre, o = (i, j, sub.getD m []) ∧ Rest g i j (sub.getD m [])) s.2

theorem backwardSub_inv (h : DU g) {so : List α → List α} (hso : ∀ l, (so l).Perm l) {score : α → List α → K}
    (hsc : SetScore score) {i j : α} (hi : i ∈ g.nodeList) (hj : j ∈ g.nodeList) {sub : List (List α)}
    {P0 : α × α × List α → Prop} {pre : List Nat} {k : Nat}
    (hk : k < sub.length) {s : List Nat × Best α K} (hs : BInv g score i j sub P0 pre s) :
    OkP (BInv g score i j sub P0 (pre ++ [k])) (backwardSub so score g i j sub s k) := by
  classical
  have hf : ∀ t, (findSubsetInclude t sub).length = s.1.length := fun t => by
    rw [findSubsetInclude_eq, List.length_map, hs.len]
  unfold backwardSub
  dsimp only
  have main : ∀ flags : List Nat, flags.length = sub.length →
      (∀ m < sub.length, flags.getD m 1 ≠ 1 → Rest g i j (sub.getD m [])) →
      OkP (BInv g score i j sub P0 (pre ++ [k])) (if decide (Rest g i j (sub.getD k [])) = true then
          (deleteChange so score g i j (sub.getD k []) s.2.record >>= fun c =>
            pure (flags, s.2.offer i j (sub.getD k []) c))
        else pure (flags, s.2)) := by
    intro flags f1 f2
    by_cases v : Rest g i j (sub.getD k [])
    · obtain ⟨r', e, hr'⟩ := deleteChange_ok h hso hsc hs.best.recOK hi hj (sub.getD k [])
      simp only [v, decide_true, if_true, e, bind, Except.bind]
      refine ⟨_, rfl, ⟨f1, f2, ?_⟩⟩
      refine (hs.best.offer (f := fun o => delDelta score g o.1 o.2.1 o.2.2) (i := i) (j := j) (t := sub.getD k [])
        hr').congr (fun o => ?_)
      constructor
      · rintro ((a | ⟨m, a, b⟩) | rfl)
        · exact Or.inl a
        · exact Or.inr ⟨m, by simp [a], b⟩
        · exact Or.inr ⟨k, by simp, rfl, v⟩
      · rintro (a | ⟨m, a, b⟩)
        · exact Or.inl (Or.inl a)
        · rcases List.mem_append.1 a with a | a
          · exact Or.inl (Or.inr ⟨m, a, b⟩)
          · rw [List.mem_singleton.1 a] at b; exact Or.inr b.1
    · simp only [v, decide_false, Bool.false_eq_true, if_false]
      refine ⟨_, rfl, ⟨f1, f2, hs.best.congr (fun o => or_congr_right ⟨fun ⟨m, a, b⟩ => ⟨m, by simp [a], b⟩, ?_⟩)⟩⟩
      rintro ⟨m, a, b⟩
      rcases List.mem_append.1 a with a | a
      · exact ⟨m, a, b⟩
      · rw [List.mem_singleton.1 a] at b; exact absurd b.2 v
  by_cases c : s.1.getD k 1 = 1
  · rw [if_pos c, deleteValid_ok h hso hi hj]
    simp only [bind, Except.bind]
    by_cases v : Rest g i j (sub.getD k [])
    · have m1 := main (GES.mark (findSubsetInclude (sub.getD k []) sub) s.1 2) ((mark_length (hf _) 2).trans hs.len) (by
        intro m hm
        rw [mark_getD hs.len.symm _ _ _ hm]
        split_ifs with c2
        · exact fun _ => Clique.anti v (fun x hx => ⟨hx.1, fun hx' => hx.2 (c2 x hx')⟩)
        · exact hs.flag m hm)
      rw [decide_eq_true v] at m1
      rw [decide_eq_true (show Clique g (fun v => NA g i j v ∧ v ∉ sub.getD k []) from v)]
      simp only [bind, Except.bind, pure, Except.pure] at m1 ⊢
      exact m1
    · have m1 := main s.1 hs.len hs.flag
      rw [decide_eq_false v] at m1
      rw [decide_eq_false (show ¬ Clique g (fun v => NA g i j v ∧ v ∉ sub.getD k []) from v)]
      simp only [bind, Except.bind, pure, Except.pure] at m1 ⊢
      exact m1
  · have m1 := main s.1 hs.len hs.flag
    rw [decide_eq_true (hs.flag k hk c)] at m1
    rw [if_neg c]
    simp only [bind, Except.bind, pure, Except.pure] at m1 ⊢
    exact m1

theorem backwardPair_inv (h : DU g) {so : List α → List α} (hso : ∀ l, (so l).Perm l) {score : α → List α → K}
    (hsc : SetScore score) {i j : α} (hi : i ∈ g.nodeList) (hj : j ∈ g.nodeList)
    {P0 : α × α × List α → Prop} {b : Best α K}
    (hb : BestInv score (fun o => delDelta score g o.1 o.2.1 o.2.2) P0 b) :
    OkP (BestInv score (fun o => delDelta score g o.1 o.2.1 o.2.2)
      (fun o => P0 o ∨ (o.1 = i ∧ o.2.1 = j ∧ BOp g o))) (backwardPair so score g b (i, j)) := by
  classical
  unfold backwardPair
  dsimp only
  have t : ∀ {u v}, u ∈ g.nodeList → v ∈ g.nodeList → g.isTail u v = .ok (decide (g.mark u v = some .tail)) :=
    fun hu hv => hasMark_ok h.wf _ hu hv
  rw [t hj hi, h.isArrow hi hj, t hi hj]
  simp only [bind, Except.bind, pure, Except.pure]
  have yes : (Dir g i j ∨ Und g i j) → OkP (BestInv score (fun o => delDelta score g o.1 o.2.1 o.2.2)
      (fun o => P0 o ∨ (o.1 = i ∧ o.2.1 = j ∧ BOp g o))) (naSet g i j >>= fun na =>
        (List.range (combinatorial na).length).foldlM (backwardSub so score g i j (combinatorial na))
          (List.replicate (combinatorial na).length 1, b) >>= fun r => pure r.2) := by
    intro c
    rw [naSet_ok h hi hj]
    simp only [bind, Except.bind]
    have hsub : ∀ m < (combinatorial (naList g i j)).length, ((combinatorial (naList g i j)).getD m []).Sublist (naList g i j) := by
      intro m hm
      rw [getD_lt hm]
      exact mem_combinatorial.1 (List.getElem_mem hm)
    obtain ⟨s, e, hs⟩ := foldlM_pre (P := BInv g score i j (combinatorial (naList g i j)) P0)
      (f := backwardSub so score g i j (combinatorial (naList g i j))) (List.range (combinatorial (naList g i j)).length)
      (fun pre x s hx hs => backwardSub_inv h hso hsc hi hj (by
        have := hx.subset (List.mem_append_right pre (List.mem_singleton.2 rfl)); exact List.mem_range.1 this) hs)
      (List.replicate (combinatorial (naList g i j)).length 1, b)
      ⟨by simp, by intro m hm; simp [hm], hb.congr (fun o => by simp)⟩
    rw [e]
    refine ⟨_, rfl, hs.best.congr ?_⟩
    rintro ⟨i', j', t⟩
    refine or_congr_right ?_
    constructor
    · rintro ⟨m, hm, e, k⟩
      simp only [Prod.mk.injEq] at e
      obtain ⟨rfl, rfl, rfl⟩ := e
      have hm := List.mem_range.1 hm
      exact ⟨rfl, rfl, ⟨c, fun t ht => (mem_naList h.wf _ _ _).1 ((hsub m hm).subset ht), k⟩, hsub m hm⟩
    · rintro ⟨rfl, rfl, k, ks⟩
      dsimp only at k ks
      obtain ⟨m, hm, e⟩ := List.mem_iff_getElem.1 (mem_combinatorial.2 ks)
      have e' : (combinatorial (naList g i' j')).getD m [] = t := by rw [getD_lt hm, e]
      refine ⟨m, List.mem_range.2 hm, ?_⟩
      rw [e']
      exact ⟨rfl, k.clique⟩
  have no : ¬ (Dir g i j ∨ Und g i j) → OkP (BestInv score (fun o => delDelta score g o.1 o.2.1 o.2.2)
      (fun o => P0 o ∨ (o.1 = i ∧ o.2.1 = j ∧ BOp g o))) (.ok b) := by
    intro c
    refine ⟨b, rfl, hb.congr ?_⟩
    rintro ⟨i', j', t⟩
    refine ⟨Or.inl, ?_⟩
    rintro (a | ⟨rfl, rfl, a⟩)
    · exact a
    · exact absurd a.1.edge c
  simp only [bind, Except.bind, pure, Except.pure] at yes
  rw [und_iff h.wf] at yes no
  by_cases c1 : g.mark j i = some .tail <;> by_cases c2 : g.mark i j = some .tail <;> by_cases c3 : Dir g i j <;>
    simp only [c1, c2, c3, decide_true, decide_false, if_true, if_false, Bool.false_eq_true, and_true,
      and_false, or_true, or_false, not_false_eq_true, true_implies, not_true_eq_false] at yes no ⊢ <;>
    first | exact yes | exact no

theorem backwardPass_ok (h : DU g) {so : List α → List α} (hso : ∀ l, (so l).Perm l) {score : α → List α → K}
    (hsc : SetScore score) {r : Record α K} (hr : RecOK score r) :
    OkP (BestInv score (fun o => delDelta score g o.1 o.2.1 o.2.2) (BOp g)) (backwardPass so score g r) := by
  unfold backwardPass
  obtain ⟨b, e, hb⟩ := foldlM_pre (f := backwardPair so score g) (P := fun pre => BestInv score (fun o => delDelta score g o.1 o.2.1 o.2.2)
    (fun o => ∃ p ∈ pre, o.1 = p.1 ∧ o.2.1 = p.2 ∧ BOp g o)) (allPairs g.nodes) (by
      rintro pre ⟨i, j⟩ s hx hs
      have hm := mem_allPairs.1 (hx.subset (List.mem_append_right pre (List.mem_singleton.2 rfl)))
      obtain ⟨b, e, hb⟩ := backwardPair_inv h hso hsc hm.1 hm.2 hs
      refine ⟨b, e, hb.congr (fun o => ?_)⟩
      simp only [List.mem_append, List.mem_singleton, or_and_right, exists_or, exists_eq_left])
    ⟨-10000000, none, r⟩ ⟨hr, by simp, by simp, by simp⟩
  refine ⟨b, e, hb.congr (fun o => ⟨fun ⟨p, _, _, _, k⟩ => k, fun k => ⟨(o.1, o.2.1), mem_allPairs.2 ?_, rfl, rfl, k⟩⟩)⟩
  rcases k.1.edge with k | k
  · exact Conn.mem h.wf (Dir.conn h.wf k)
  · exact Conn.mem h.wf (Und.conn h.wf k)

end GES
end Cdmir
