import Verif.Props.FisherZ

/-!
Property C118: the PC algorithm with the Fisher z-test.
-/

set_option linter.unusedSectionVars false

namespace Cdmir.Fisher
open Cdmir.Spec Matrix
variable {α : Type} [DecidableEq α]

/-- Positions of names. -/
theorem mapM_positions {names z : List α} (hz : ∀ w ∈ z, w ∈ names) : ∃ zs : List (Fin names.length),
    z.mapM (dgetE (nameId names)) = .ok (zs.map fun k : Fin names.length => ((k : ℕ) : ℤ)) ∧ zs.map names.get = z := by
  induction z with
  | nil => exact ⟨[], rfl, rfl⟩
  | cons a z ih =>
    obtain ⟨zs, h1, h2⟩ := ih (fun w hw => hz w (by simp [hw]))
    obtain ⟨i, h3, h4⟩ := (nameId_spec names a).1 (hz a (by simp))
    obtain ⟨hlt, h5⟩ := List.getElem?_eq_some_iff.1 h4
    refine ⟨⟨i, hlt⟩ :: zs, ?_, ?_⟩
    · rw [List.mapM_cons, h3, h1]; rfl
    · rw [List.map_cons, h2]; simp [h5]

section
variable {names : List α} {corr : Matrix (Fin names.length) (Fin names.length) ℝ} {N : ℕ}

/-- What a `FisherZ` object answers, whatever it was asked before. -/
theorem fisherTest_spec (hc : corr.transpose = corr) {u v : α} {z : List α} (hu : u ∈ names) (hv : v ∈ names) (hz : ∀ w ∈ z, w ∈ names) :
    ∃ (i j : Fin names.length) (zs : List (Fin names.length)), names.get i = u ∧ names.get j = v ∧ zs.map names.get = z ∧
      ∀ s, CacheInv (fisherzFromCorr corr N) s → ∀ r, fromSub corr N i j zs = .ok r →
        ∃ s', fisherTest names corr N u v z s = .ok (r.1, s') ∧ CacheInv (fisherzFromCorr corr N) s' := by
  obtain ⟨zs, z1, z2⟩ := mapM_positions hz
  obtain ⟨i, i1, i2⟩ := (nameId_spec names u).1 hu
  obtain ⟨j, j1, j2⟩ := (nameId_spec names v).1 hv
  obtain ⟨hi, hi'⟩ := List.getElem?_eq_some_iff.1 i2
  obtain ⟨hj, hj'⟩ := List.getElem?_eq_some_iff.1 j2
  refine ⟨⟨i, hi⟩, ⟨j, hj⟩, zs, hi', hj', z2, fun s hs r hr => ?_⟩
  have hcal := cal_nat (corr := corr) (N := N) ⟨i, hi⟩ ⟨j, hj⟩ zs
  rw [hr] at hcal
  unfold fisherTest
  rw [(citTest_eq s u v (some z) i1 j1 (zs := some (zs.map fun k : Fin names.length => ((k : ℕ) : ℤ))) z1).1]
  rcases itest_spec (truthy := fun _ => true) hs i j (some (zs.map fun k : Fin names.length => ((k : ℕ) : ℤ))) with
    ⟨w, c', x', y', z', e, hc', hk, hw⟩ | ⟨e, _, hw⟩
  · have hw' := cal_symm (N := N) hc ((c34_key_iff _ _ _ _ _ _).1 hk)
    rw [hw] at hw'
    rw [← hw'] at hcal
    rw [e]
    cases hcal
    exact ⟨c', rfl, hc'⟩
  · rw [hcal] at hw; cases hw

end

theorem posDef_symm {n : ℕ} {C : Matrix (Fin n) (Fin n) ℝ} (h : C.PosDef) : C.transpose = C := (posDef_iff.1 h).1

/-- Distinct variables stay distinct as positions. -/
theorem nodup_positions {names : List α} {i j : Fin names.length} {zs : List (Fin names.length)}
    (h : (names.get i :: names.get j :: zs.map names.get).Nodup) : (i :: j :: zs).Nodup := by
  have : ((i :: j :: zs).map names.get).Nodup := h
  exact this.of_map _

/-- With enough records a correlation other than zero is significant. -/
theorem pOf_small (k : ℕ) {r alpha : ℝ} (hr : r ≠ 0) (ha : 0 < alpha) : ∃ N0, ∀ N, N0 ≤ N → ∃ q, pOf N k (.fin r) = .val q ∧ q < alpha := by
  obtain ⟨h0, h1, h2⟩ := absStat_fin r
  have hz : 0 < zOf (absStat (.fin r)) := zOf_pos (lt_of_le_of_ne h0 fun h => hr (h2.1 h.symm)) h1
  have ht : Filter.Tendsto (fun N : ℕ => normCdf (Real.sqrt ((N : ℝ) - k - 3) * zOf (absStat (.fin r)))) Filter.atTop (nhds 1) := by
    refine normCdf_tendsto.comp (Filter.Tendsto.atTop_mul_const hz (Real.tendsto_sqrt_atTop.comp ?_))
    have : Filter.Tendsto (fun N : ℕ => (N : ℝ) + (-(k : ℝ) - 3)) Filter.atTop Filter.atTop :=
      Filter.tendsto_atTop_add_const_right _ _ tendsto_natCast_atTop_atTop
    exact this.congr fun N => by ring
  have hev := ht.eventually (lt_mem_nhds (show 1 - alpha / 2 < 1 by linarith))
  obtain ⟨N1, hN1⟩ := Filter.eventually_atTop.1 hev
  refine ⟨max N1 (k + 3), fun N hN => ⟨_, pOf_val ((le_max_right _ _).trans hN) r, ?_⟩⟩
  have := hN1 N ((le_max_left _ _).trans hN)
  linarith

section
variable {G : Graph α} {C : Matrix (Fin G.nodes.length) (Fin G.nodes.length) ℝ}

/-- **C118.** For the population correlations of a faithful linear model over a DAG a `FisherZ` object is a perfect oracle at every significance
level in `(0, 1]` once the number of records is large enough. -/
theorem c118_perfect (hG : Reachable .digraph G) (ac : Acyclic (Dir G))
    (hC : LinearModel (fun i j => Dir G (G.nodes.get i) (G.nodes.get j)) C)
    (hF : Faithful (fun i j => Dir G (G.nodes.get i) (G.nodes.get j)) C) {alpha : ℝ} (ha : 0 < alpha) (ha' : alpha ≤ 1) :
    ∃ N0, ∀ N, N0 ≤ N → Perfect (Dir G) G.nodes (PV.val alpha) (fisherTest G.nodes (corrOf C) N)
      (CacheInv (fisherzFromCorr (corrOf C) N)) := by
  have hn : G.nodes.Nodup := hG.dg.wf.nodup
  have hinj : Function.Injective G.nodes.get := List.nodup_iff_injective_get.1 hn
  set R : Fin G.nodes.length → Fin G.nodes.length → Prop := fun i j => Dir G (G.nodes.get i) (G.nodes.get j) with hRd
  have acR : Acyclic R := by
    intro i hi
    exact ac _ (Relation.TransGen.lift G.nodes.get (fun a b h => h) _ _ hi)
  have hP := hC.posDef acR
  have hPc := corrOf_posDef hP
  have hmem : ∀ u v, Dir G u v → (∃ i, G.nodes.get i = u) ∧ ∃ j, G.nodes.get j = v := fun u v h =>
    ⟨List.mem_iff_get.1 (Graph.Dir.mem hG.dg.wf h).1, List.mem_iff_get.1 (Graph.Dir.mem hG.dg.wf h).2⟩
  -- the threshold of one question
  have hone : ∀ t : Fin G.nodes.length × Fin G.nodes.length × Finset (Fin G.nodes.length), ∃ N0, ∀ N, N0 ≤ N →
      (t.1 :: t.2.1 :: t.2.2.toList).Nodup → ¬ DSep R t.1 t.2.1 (fun w => w ∈ t.2.2.toList) →
      ∃ q r, fromSub (corrOf C) N t.1 t.2.1 t.2.2.toList = .ok (.val q, r) ∧ q < alpha := by
    rintro ⟨i, j, Z⟩
    by_cases hd : (i :: j :: Z.toList).Nodup ∧ ¬ DSep R i j (fun w => w ∈ Z.toList)
    · obtain ⟨p, r, h, hr⟩ := c117_faithful (N := 0) acR hC hF hd.1
      rw [cal_nat, fromSub_posDef (hPc.submatrix (picks_var hd.1).inj)] at h
      simp only [Except.ok.injEq, Prod.mk.injEq, Stat.fin.injEq] at h
      obtain ⟨_, h⟩ := h
      obtain ⟨N0, hN0⟩ := pOf_small Z.toList.length (fun h0 => hd.2 (hr.1 h0)) ha
      refine ⟨N0, fun N hN _ _ => ?_⟩
      obtain ⟨q, e, hq⟩ := hN0 N hN
      exact ⟨q, .fin r, by rw [fromSub_posDef (hPc.submatrix (picks_var hd.1).inj), h, e], hq⟩
    · exact ⟨0, fun N _ h1 h2 => absurd ⟨h1, h2⟩ hd⟩
  choose F hF' using hone
  refine ⟨max (Finset.univ.sup F) (G.nodes.length + 3), fun N hN => ?_⟩
  rintro u v z ⟨l1, l2, l3, l4, l5, l6, l7⟩ s hs
  obtain ⟨i, j, zs, hi, hj, hz, hans⟩ := fisherTest_spec (corr := corrOf C) (N := N) (posDef_symm hPc) l1 l2 l4
  have hnd : (i :: j :: zs).Nodup := by
    apply nodup_positions
    rw [hi, hj, hz]
    refine List.nodup_cons.2 ⟨fun h => ?_, List.nodup_cons.2 ⟨l7, l5⟩⟩
    rcases List.mem_cons.1 h with h | h
    · exact l3 h
    · exact l6 h
  have hds : DSep (Dir G) u v (fun w => w ∈ z) ↔ DSep R i j (fun w => w ∈ zs) := by
    rw [← hi, ← hj, dsep_map (R' := R) hinj (fun _ _ => Iff.rfl) hmem]
    refine dsep_congr (fun w => ?_) i j
    rw [← hz]
    exact ⟨fun h => by obtain ⟨w', h1, h2⟩ := List.mem_map.1 h; rw [← hinj h2]; exact h1, fun h => List.mem_map.2 ⟨w, h, rfl⟩⟩
  have hlen : zs.length + 3 ≤ N := by
    have : zs.length ≤ G.nodes.length := by
      have h1 := (List.nodup_cons.1 (List.nodup_cons.1 hnd).2).2
      have := h1.length_le_card
      simpa using this
    have := (le_max_right _ _).trans hN
    omega
  rw [hds]
  by_cases hsep : DSep R i j (fun w => w ∈ zs)
  · obtain ⟨p, hp, hp1⟩ := c117_dsep (N := N) acR hC hnd hsep
    rw [cal_nat] at hp
    obtain ⟨s', e, hs'⟩ := hans s hs _ hp
    refine ⟨p, s', e, hs', ?_⟩
    rw [hp1 hlen]
    exact ⟨fun _ => hsep, fun _ => ha'⟩
  · have hperm : zs.Perm zs.toFinset.toList := by
      have h1 := (List.nodup_cons.1 (List.nodup_cons.1 hnd).2).2
      exact (List.perm_ext_iff_of_nodup h1 (Finset.nodup_toList _)).2 fun a => by simp
    obtain ⟨q, r, hq, hlt⟩ := hF' (i, j, zs.toFinset) N (((Finset.le_sup (Finset.mem_univ _)).trans (le_max_left _ _)).trans hN)
      (((hperm.cons j).cons i).nodup_iff.1 hnd)
      (fun h => hsep ((dsep_congr (fun w => hperm.mem_iff) i j).2 h))
    rw [← fromSub_perm hperm] at hq
    obtain ⟨s', e, hs'⟩ := hans s hs _ hq
    refine ⟨.val q, s', e, hs', ?_⟩
    exact ⟨fun h => absurd hlt (not_lt.2 h), fun h => absurd h hsep⟩

/-- **C118.** `PC.fit` with a new `FisherZ` object on the population correlations of a faithful linear model over a DAG leaves, for every significance
level in `(0, 1]` and either search method, the graph `dag2cpdag` computes from the DAG, once the number of records is large enough. -/
theorem c118_pc (hG : Reachable .digraph G) (ac : Acyclic (Dir G))
    (hC : LinearModel (fun i j => Dir G (G.nodes.get i) (G.nodes.get j)) C)
    (hF : Faithful (fun i j => Dir G (G.nodes.get i) (G.nodes.get j)) C) {alpha : ℝ} (ha : 0 < alpha) (ha' : alpha ≤ 1)
    {so : List α → List α} (hso : ∀ l, (so l).Perm l) :
    ∃ N0, ∀ N, N0 ≤ N →
      ∀ (search : CITest α (Cache (PV × Stat)) PV → List α → PV → Cache (PV × Stat) → Except Err (Graph α × Sep α × Cache (PV × Stat))),
        search = adjacencySearch ∨ search = fastAdjacencySearch →
        ∃ r st' c, pcFit search (fisherTest G.nodes (corrOf C) N) G.nodes (.val alpha) [] = .ok (r, st') ∧ dag2cpdag so G = .ok c ∧
          r.causal.graphEqual c = .ok true ∧ ∀ u v, r.causal.getEdge u v = c.getEdge u v := by
  obtain ⟨N0, h⟩ := c118_perfect hG ac hC hF ha ha'
  exact ⟨N0, fun N hN search hs => c32_pc_oracle hG ac hso (h N hN) CacheInv.nil search hs⟩

end

section few
variable {names : List α} {corr : Matrix (Fin names.length) (Fin names.length) ℝ} {N : ℕ}

theorem answers_inv {σ P : Type} {test : CITest α σ P} {I : σ → Prop} {Q : Asked α P → Prop} {L : Asked α P → Prop}
    (h : ∀ q s s', L q → I s → test q.u q.v q.z s = .ok (q.p, s') → Q q ∧ I s') {s s' : σ} {tr : List (Asked α P)}
    (ha : Answers test s tr s') (hs : I s) (hl : ∀ q ∈ tr, L q) : ∀ q ∈ tr, Q q := by
  induction tr generalizing s with
  | nil => simp
  | cons q t ih =>
    obtain ⟨s1, e, h1⟩ := ha
    obtain ⟨hq, hs1⟩ := h q s s1 (hl q (by simp)) hs e
    intro q' hq'
    rcases List.mem_cons.1 hq' with rfl | hq'
    · exact hq
    · exact ih h1 hs1 (fun q hq => hl q (by simp [hq])) q' hq'

/-- The answers to sensible questions, for positive definite correlations. -/
theorem fisherTest_posDef (hP : corr.PosDef) {u v : α} {z : List α} (hl : Legal names u v z) :
    ∃ r : ℝ, ∀ s, CacheInv (fisherzFromCorr corr N) s →
      ∃ s', fisherTest names corr N u v z s = .ok (pOf N z.length (.fin r), s') ∧ CacheInv (fisherzFromCorr corr N) s' := by
  obtain ⟨l1, l2, l3, l4, l5, l6, l7⟩ := hl
  obtain ⟨i, j, zs, hi, hj, hz, hans⟩ := fisherTest_spec (N := N) (posDef_symm hP) l1 l2 l4
  have hnd : (i :: j :: zs).Nodup := by
    apply nodup_positions
    rw [hi, hj, hz]
    refine List.nodup_cons.2 ⟨fun h => ?_, List.nodup_cons.2 ⟨l7, l5⟩⟩
    rcases List.mem_cons.1 h with h | h
    · exact l3 h
    · exact l6 h
  obtain ⟨r, hr⟩ : ∃ r, fromSub corr N i j zs = .ok (pOf N zs.length (.fin r), .fin r) := ⟨_, fromSub_posDef (hP.submatrix (picks_var hnd).inj)⟩
  refine ⟨r, fun s hs => ?_⟩
  obtain ⟨s', e, hs'⟩ := hans s hs _ hr
  refine ⟨s', ?_, hs'⟩
  rw [e]
  have : z.length = zs.length := by rw [← hz, List.length_map]
  rw [this]

theorem answers_p (hP : corr.PosDef) {tr : List (Asked α PV)} {s s' : Cache (PV × Stat)} (ha : Answers (fisherTest names corr N) s tr s')
    (hs : CacheInv (fisherzFromCorr corr N) s) (hl : ∀ q ∈ tr, Legal names q.u q.v q.z) : ∀ q ∈ tr, ∃ r : ℝ, q.p = pOf N q.z.length (.fin r) := by
  refine answers_inv (L := fun q => Legal names q.u q.v q.z) (Q := fun q => ∃ r : ℝ, q.p = pOf N q.z.length (.fin r)) ?_ ha hs hl
  intro q s s' hq hs e
  obtain ⟨r, h⟩ := fisherTest_posDef (N := N) hP hq
  obtain ⟨s1, e1, h1⟩ := h s hs
  rw [e] at e1
  simp only [Except.ok.injEq, Prod.mk.injEq] at e1
  exact ⟨⟨r, e1.1⟩, e1.2 ▸ h1⟩

theorem levels_zero {P : Type} [LE P] {alpha : P} {k : ℕ} {tr : List (Asked α P)} (h : Levels alpha names (k + 1) tr) {u v : α}
    (hu : u ∈ names) (hv : v ∈ names) (hne : u ≠ v) : ∃ q ∈ tr, q.u = u ∧ q.v = v ∧ q.z = [] := by
  induction k generalizing tr with
  | zero =>
    cases h with
    | succ h hl =>
      cases h
      obtain ⟨q, hq, h1, h2, h3⟩ := hl.2 u v [] ⟨hu, hv, hne, fun z => by simp [Accepted]⟩ List.nodup_nil rfl (by simp)
      exact ⟨q, List.mem_append_right _ hq, h1, h2, List.perm_nil.1 h3⟩
  | succ k ih =>
    cases h with
    | succ h hl =>
      obtain ⟨q, hq, h⟩ := ih h
      exact ⟨q, List.mem_append_left _ hq, h⟩

/-- The test answers sensible questions in every state. -/
theorem fisherTest_total (hP : corr.PosDef) {u v : α} {z : List α} (s : Cache (PV × Stat)) (hl : Legal names u v z) :
    ∃ p s', fisherTest names corr N u v z s = .ok (p, s') := by
  obtain ⟨zs, z1, _⟩ := mapM_positions hl.2.2.2.1
  obtain ⟨i, i1, _⟩ := (nameId_spec names u).1 hl.1
  obtain ⟨j, j1, _⟩ := (nameId_spec names v).1 hl.2.1
  obtain ⟨r, h⟩ := fisherTest_posDef (N := N) hP hl
  obtain ⟨s0, e0, _⟩ := h [] CacheInv.nil
  unfold fisherTest at e0 ⊢
  rw [(citTest_eq _ u v (some z) i1 j1 (zs := some (zs.map fun k : Fin names.length => ((k : ℕ) : ℤ))) z1).1] at e0 ⊢
  unfold itest at e0 ⊢
  simp only [Option.map_some, ZArg.first, ZArg.later, dget, if_true] at e0 ⊢
  cases hcal : fisherzFromCorr corr N i j (some (zs.map fun k : Fin names.length => ((k : ℕ) : ℤ))) with
  | error e => rw [hcal] at e0; cases e0
  | ok r =>
    split
    · exact ⟨_, _, rfl⟩
    · exact ⟨_, _, rfl⟩

theorem two_le {l : List α} {u v : α} (hu : u ∈ l) (hv : v ∈ l) (h : u ≠ v) : 0 < l.length - 1 := by
  match l, hu, hv with
  | [a], hu, hv => exact absurd ((List.mem_singleton.1 hu).trans (List.mem_singleton.1 hv).symm) h
  | a :: b :: l, _, _ => simp

theorem search_evidence (hn : names.Nodup) {σ P : Type} [LE P] [DecidableLE P] {test : CITest α σ P} {alpha : P} {st st' : σ} {g : Graph α} {sep : Sep α}
    {search : CITest α σ P → List α → P → σ → Except Err (Graph α × Sep α × σ)}
    (hsearch : search = adjacencySearch ∨ search = fastAdjacencySearch) (h : search test names alpha st = .ok (g, sep, st')) :
    ∃ tr, Answers test st tr st' ∧ (∀ q ∈ tr, Legal names q.u q.v q.z) ∧ (∀ u v, Conn g u v ↔ KeepOf names (Accepted alpha tr) u v) ∧
      ∀ u v, Conn g u v → ∃ q ∈ tr, ((q.u = u ∧ q.v = v) ∨ (q.u = v ∧ q.v = u)) ∧ q.z = [] := by
  rcases hsearch with rfl | rfl
  · have hs := Graph.adjacencySearch_spec (test := test) (alpha := alpha) (st0 := st) hn
    rw [h] at hs
    obtain ⟨tr, hl, hs⟩ := hs
    refine ⟨tr, hs.ans, hs.legal, fun u v => hs.ug.conn u v, fun u v hc => ?_⟩
    obtain ⟨h1, h2, h3, _⟩ := (hs.ug.conn u v).1 hc
    have : names.length - 1 = (names.length - 2) + 1 := by have := two_le h1 h2 h3; omega
    rw [this] at hl
    obtain ⟨q, hq, e1, e2, e3⟩ := levels_zero hl h1 h2 h3
    exact ⟨q, hq, Or.inl ⟨e1, e2⟩, e3⟩
  · obtain ⟨_, _, _, tr, ha, hl, hc, _, hq⟩ := c31_fast_evidence hn h
    refine ⟨tr, ha, hl, hc, fun u v huv => ?_⟩
    obtain ⟨h1, h2, h3, h4⟩ := (hc u v).1 huv
    have hvu : Conn g v u := (hc v u).2 ⟨h2, h1, h3.symm, fun z => (h4 z).symm⟩
    rcases pairs_complete h1 h2 h3 with hp | hp
    · obtain ⟨q, hq, e1, e2, e3, _⟩ := hq u v [] hp huv List.nodup_nil (two_le h1 h2 h3) (by simp)
      exact ⟨q, hq, Or.inl ⟨e1, e2⟩, List.perm_nil.1 e3⟩
    · obtain ⟨q, hq, e1, e2, e3, _⟩ := hq v u [] hp hvu List.nodup_nil (two_le h1 h2 h3) (by simp)
      exact ⟨q, hq, Or.inr ⟨e1, e2⟩, List.perm_nil.1 e3⟩

/-- **C118, too few records.** With fewer than three records every p-value is NaN and nothing is removed; with exactly three every pair is accepted
as independent and no edge is left. -/
theorem c118_few (hP : corr.PosDef) (hn : names.Nodup) {alpha : ℝ} (ha : alpha ≤ 1) (hN : N ≤ 3)
    (search : CITest α (Cache (PV × Stat)) PV → List α → PV → Cache (PV × Stat) → Except Err (Graph α × Sep α × Cache (PV × Stat)))
    (hsearch : search = adjacencySearch ∨ search = fastAdjacencySearch) :
    ∃ r st', pcFit search (fisherTest names corr N) names (.val alpha) [] = .ok (r, st') ∧
      (N < 3 → ∀ u v, Conn r.causal u v ↔ u ∈ names ∧ v ∈ names ∧ u ≠ v) ∧ (N = 3 → ∀ u v, ¬ Conn r.causal u v) := by
  obtain ⟨r, st', e, es, _, _, _, hcon, _⟩ := c33_pc_fit (alpha := PV.val alpha) (st := []) hn search hsearch
    (fun u v z s hl => fisherTest_total (N := N) hP s hl)
  obtain ⟨tr, hans, hleg, hk, h0⟩ := search_evidence hn hsearch es
  have hp := answers_p hP hans CacheInv.nil hleg
  have hcc : ∀ u v, Conn r.causal u v ↔ Conn r.skeleton u v := fun u v => by unfold Conn; rw [hcon]
  refine ⟨r, st', e, fun h3 u v => ?_, fun h3 u v hc => ?_⟩
  · rw [hcc, hk]
    have hno : ∀ a b z, ¬ Accepted (PV.val alpha) tr a b z := by
      rintro a b z ⟨p, hle, hm⟩
      obtain ⟨x, hx⟩ := hp _ hm
      simp only at hx
      rw [hx, pOf, if_pos (by omega)] at hle
      exact hle
    exact ⟨fun h => ⟨h.1, h.2.1, h.2.2.1⟩, fun h => ⟨h.1, h.2.1, h.2.2, fun z => ⟨hno _ _ _, hno _ _ _⟩⟩⟩
  · rw [hcc] at hc
    obtain ⟨q, hq, hqe, hz⟩ := h0 u v hc
    obtain ⟨x, hx⟩ := hp q hq
    have hle : PV.val alpha ≤ q.p := by
      rw [hx, hz, h3, pOf_val (by simp)]
      have : Real.sqrt (((3 : ℕ) : ℝ) - (([] : List α).length : ℕ) - 3) = 0 := by simp
      rw [this, zero_mul, normCdf_zero]
      change alpha ≤ _
      linarith
    have hacc : Accepted (PV.val alpha) tr q.u q.v q.z := ⟨q.p, hle, hq⟩
    obtain ⟨_, _, _, h4⟩ := (hk u v).1 hc
    rcases hqe with ⟨e1, e2⟩ | ⟨e1, e2⟩
    · rw [e1, e2] at hacc; exact (h4 _).1 hacc
    · rw [e1, e2] at hacc; exact (h4 _).2 hacc

end few

end Cdmir.Fisher
