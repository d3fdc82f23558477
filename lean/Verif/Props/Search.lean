import Verif.Props.Dag2Cpdag
import Verif.Lemmas.Fast

/-! Properties C28-C33: the adjacency searches and PC. -/

namespace Cdmir
open Graph Spec

section
variable {α σ P : Type} [DecidableEq α] [LE P] [DecidableLE P]
variable {test : CITest α σ P} {alpha : P} {names : List α} {st st' : σ} {g : Graph α} {sep : Sep α}

theorem adjacencySearch_dup (hn : ¬ names.Nodup) : adjacencySearch test names alpha st = .error .assertion := by
  unfold adjacencySearch
  have : Graph.init .pdag names = .error .assertion := by
    cases h : Graph.init .pdag names with
    | ok g => exact absurd ((init_ok_iff .pdag names).1 ⟨g, h⟩) hn
    | error e =>
      unfold Graph.init at h
      simp only at h
      split at h
      · cases h
      · cases h; rfl
  rw [this]; rfl

/-- **C29.** Whatever the test answers: the result is undirected on `var_names`; there is a sequence `tr` of questions,
level by level exactly those the stable search calls for, such that an edge is missing iff a question about it (in one of
the two orders) was accepted, and each entry of `sep_set` is the union of the accepted conditioning sets. -/
theorem c29_adjacency_search (h : adjacencySearch test names alpha st = .ok (g, sep, st')) :
    names.Nodup ∧ ReachableSimple .pdag g ∧ g.nodes = names ∧ (∀ u v, Conn g u v → Und g u v) ∧
    ∃ tr, Answers test st tr st' ∧ Levels alpha names (names.length - 1) tr ∧
      (∀ u ∈ names, ∀ v ∈ names, u ≠ v →
        (g.isConnected u v = .ok false ↔ ∃ z, Accepted alpha tr u v z ∨ Accepted alpha tr v u z)) ∧
      (∀ u ∈ names, ∀ v ∈ names, u ≠ v → ∃ s s', dget sep (u, v) = some s ∧ dget sep (v, u) = some s' ∧
        (∀ w, w ∈ s ↔ w ∈ s') ∧ u ∉ s ∧ v ∉ s ∧ (∀ w ∈ s, w ∈ names) ∧
        (∀ w, w ∈ s ↔ ∃ z, (Accepted alpha tr u v z ∨ Accepted alpha tr v u z) ∧ w ∈ z) ∧
        (g.isConnected u v = .ok true → s = [])) := by
  by_cases hn : names.Nodup
  · have := adjacencySearch_spec (test := test) (alpha := alpha) (st0 := st) hn
    rw [h] at this
    obtain ⟨tr, hl, hs⟩ := this
    have hug := hs.ug
    have hkeep : ∀ u ∈ names, ∀ v ∈ names, u ≠ v → (¬ KeepOf names (Accepted alpha tr) u v ↔
        ∃ z, Accepted alpha tr u v z ∨ Accepted alpha tr v u z) := by
      intro u hu v hv huv
      unfold KeepOf
      constructor
      · intro hc
        by_contra hne
        exact hc ⟨hu, hv, huv, fun z => ⟨fun h => hne ⟨z, Or.inl h⟩, fun h => hne ⟨z, Or.inr h⟩⟩⟩
      · rintro ⟨z, hz⟩ ⟨_, _, _, hc⟩
        exact hz.elim (hc z).1 (hc z).2
    refine ⟨hn, hug.rs, hug.nodes, hug.und, tr, hs.ans, hl, ?_, ?_⟩
    · intro u hu v hv huv
      rw [← hkeep u hu v hv huv, hug.isConnected hu hv]
      simp
    · intro u hu v hv huv
      obtain ⟨s, e1, h1⟩ := hs.sep u hu v hv huv
      obtain ⟨s', e2, h2⟩ := hs.sep v hv u hu huv.symm
      have hin : ∀ w ∈ s, w ∈ names ∧ w ≠ u ∧ w ≠ v := by
        intro w hw
        obtain ⟨z, hz, hwz⟩ := (h1 w).1 hw
        rcases hz with ⟨p, _, hq⟩ | ⟨p, _, hq⟩
        · obtain ⟨_, _, _, l1, _, l2, l3⟩ := hs.legal _ hq
          exact ⟨l1 w hwz, fun c => l2 (c ▸ hwz), fun c => l3 (c ▸ hwz)⟩
        · obtain ⟨_, _, _, l1, _, l2, l3⟩ := hs.legal _ hq
          exact ⟨l1 w hwz, fun c => l3 (c ▸ hwz), fun c => l2 (c ▸ hwz)⟩
      refine ⟨s, s', e1, e2, fun w => ?_, fun hc => (hin u hc).2.1 rfl, fun hc => (hin v hc).2.2 rfl,
        fun w hw => (hin w hw).1, h1, fun hc => ?_⟩
      · rw [h1, h2]; simp only [Or.comm]
      · have hk := (hug.conn u v).1 hc
        rw [List.eq_nil_iff_forall_not_mem]
        intro w hw
        obtain ⟨z, hz, _⟩ := (h1 w).1 hw
        exact hz.elim (hk.2.2.2 z).1 (hk.2.2.2 z).2
  · rw [adjacencySearch_dup hn] at h
    cases h

/-- **C29, exceptions.** The search raises only for duplicate names or when the test itself raises on a sensible
question. -/
theorem c29_raises {e : Err} (h : adjacencySearch test names alpha st = .error e) :
    (¬ names.Nodup ∧ e = .assertion) ∨ Raised test names st e := by
  by_cases hn : names.Nodup
  · have := adjacencySearch_spec (test := test) (alpha := alpha) (st0 := st) hn
    rw [h] at this
    exact Or.inr this
  · rw [adjacencySearch_dup hn] at h
    cases h
    exact Or.inl ⟨hn, rfl⟩

/-- **C28.** With a perfect oracle for an acyclic graph over the variables (in any order) `adjacency_search` returns the
true adjacencies, undirected. -/
theorem c28_true_skeleton {G : Graph α} (hG : Reachable .digraph G) (ac : Acyclic (Dir G)) (hperm : names.Perm G.nodes)
    {I : σ → Prop} (hp : Perfect (Dir G) names alpha test I) (hst : I st) :
    ∃ g sep st', adjacencySearch test names alpha st = .ok (g, sep, st') ∧ I st' ∧ ReachableSimple .pdag g ∧
      g.nodes = names ∧ (∀ u v, Conn g u v ↔ Adj (Dir G) u v) ∧ ∀ u v, Conn g u v → Und g u v := by
  have hn : names.Nodup := hperm.nodup_iff.2 hG.dg.wf.nodup
  obtain ⟨⟨g, sep, st'⟩, e, tr, hl, hs⟩ :=
    (adjacencySearch_spec (test := test) (alpha := alpha) (st0 := st) hn).ok (perfect_not_raised hp hst)
  obtain ⟨hi, hans⟩ := perfect_answers hp hs.ans hst hs.legal
  have hD : ∀ u v, Dir G u v → u ∈ names ∧ v ∈ names := by
    intro u v h
    have := Dir.mem hG.dg.wf h
    exact ⟨hperm.mem_iff.2 this.1, hperm.mem_iff.2 this.2⟩
  exact ⟨g, sep, st', e, hi, hs.ug.rs, hs.ug.nodes,
    fun u v => (hs.ug.conn u v).trans (levels_skeleton ac hD hn hl hs.legal hans u v), hs.ug.und⟩

omit [DecidableEq α] [DecidableLE P] in
/-- Same questions up to order, same answers: proof device for C30. -/
theorem levels_perm {t : α → α → List α → P} (ht : ∀ u v z z', z.Perm z' → t u v z = t u v z')
    {N N' : List α} (hN : ∀ w, w ∈ N ↔ w ∈ N') {k : Nat} {tr tr' : List (Asked α P)} (h : Levels alpha N k tr)
    (h' : Levels alpha N' k tr') (ha : ∀ q ∈ tr, q.p = t q.u q.v q.z) (ha' : ∀ q ∈ tr', q.p = t q.u q.v q.z) :
    (∀ u v z, Accepted alpha tr u v z → ∃ z', z'.Perm z ∧ Accepted alpha tr' u v z') ∧
    (∀ u v z, Accepted alpha tr' u v z → ∃ z', z'.Perm z ∧ Accepted alpha tr u v z') := by
  induction h generalizing tr' with
  | zero =>
    cases h'
    exact ⟨fun u v z hz => ⟨z, List.Perm.refl _, hz⟩, fun u v z hz => ⟨z, List.Perm.refl _, hz⟩⟩
  | @succ k tr1 lev hl hask ih =>
    cases h' with
    | @succ _ tr2 lev2 hl2 hask2 =>
      obtain ⟨i1, i2⟩ := ih hl2 (fun q hq => ha q (by simp [hq])) (fun q hq => ha' q (by simp [hq]))
      have hkeep : ∀ u v, KeepOf N (Accepted alpha tr1) u v ↔ KeepOf N' (Accepted alpha tr2) u v := by
        intro u v
        unfold KeepOf
        rw [hN, hN]
        constructor
        · rintro ⟨a, b, c, d⟩
          refine ⟨a, b, c, fun z => ⟨fun hz => ?_, fun hz => ?_⟩⟩
          · obtain ⟨z', _, h⟩ := i2 _ _ _ hz; exact (d z').1 h
          · obtain ⟨z', _, h⟩ := i2 _ _ _ hz; exact (d z').2 h
        · rintro ⟨a, b, c, d⟩
          refine ⟨a, b, c, fun z => ⟨fun hz => ?_, fun hz => ?_⟩⟩
          · obtain ⟨z', _, h⟩ := i1 _ _ _ hz; exact (d z').1 h
          · obtain ⟨z', _, h⟩ := i1 _ _ _ hz; exact (d z').2 h
      have half : ∀ {K K' : α → α → Prop} {l l' : List (Asked α P)}, (∀ u v, K u v ↔ K' u v) → LevelAsks K k l →
          LevelAsks K' k l' → (∀ q ∈ l, q.p = t q.u q.v q.z) → (∀ q ∈ l', q.p = t q.u q.v q.z) →
          ∀ u v z, Accepted alpha l u v z → ∃ z', z'.Perm z ∧ Accepted alpha l' u v z' := by
        rintro K K' l l' hK hl hl' hp hp' u v z ⟨p, h1, h2⟩
        obtain ⟨c1, c2, c3, c4⟩ := hl.1 _ h2
        obtain ⟨q, hq, rfl, rfl, hperm⟩ := hl'.2 u v z ((hK _ _).1 c1) c2 c3 (fun w hw => ⟨(hK _ _).1 (c4 w hw).1, (c4 w hw).2⟩)
        refine ⟨q.z, hperm, q.p, ?_, hq⟩
        have e1 := hp _ h2
        simp only at e1
        rw [hp' q hq, ht _ _ _ _ hperm, ← e1]
        exact h1
      have hb := half hkeep hask hask2 (fun q hq => ha q (by simp [hq])) (fun q hq => ha' q (by simp [hq]))
      have hb' := half (fun u v => (hkeep u v).symm) hask2 hask (fun q hq => ha' q (by simp [hq])) (fun q hq => ha q (by simp [hq]))
      constructor
      · intro u v z hz
        rcases (accepted_append _ _ _ _ _).1 hz with hz | hz
        · obtain ⟨z', h1, h2⟩ := i1 u v z hz
          exact ⟨z', h1, (accepted_append _ _ _ _ _).2 (Or.inl h2)⟩
        · obtain ⟨z', h1, h2⟩ := hb u v z hz
          exact ⟨z', h1, (accepted_append _ _ _ _ _).2 (Or.inr h2)⟩
      · intro u v z hz
        rcases (accepted_append _ _ _ _ _).1 hz with hz | hz
        · obtain ⟨z', h1, h2⟩ := i2 u v z hz
          exact ⟨z', h1, (accepted_append _ _ _ _ _).2 (Or.inl h2)⟩
        · obtain ⟨z', h1, h2⟩ := hb' u v z hz
          exact ⟨z', h1, (accepted_append _ _ _ _ _).2 (Or.inr h2)⟩

/-- **C30.** A test whose answer depends only on the pair and the set of conditioning variables: permuting the variables
changes neither the adjacencies nor the separating sets. -/
theorem c30_order_independent {t : α → α → List α → P} (ht : ∀ u v z z', z.Perm z' → t u v z = t u v z')
    {names' : List α} (hn : names.Nodup) (hperm : names.Perm names')
    (htest : ∀ u v z s, Legal names u v z → ∃ s', test u v z s = .ok (t u v z, s')) (s0 s0' : σ) :
    ∃ g sep st g' sep' st', adjacencySearch test names alpha s0 = .ok (g, sep, st) ∧
      adjacencySearch test names' alpha s0' = .ok (g', sep', st') ∧
      (∀ u v, g.isConnected u v = g'.isConnected u v) ∧ (∀ u v, g.getEdge u v = g'.getEdge u v) ∧
      ∀ u ∈ names, ∀ v ∈ names, u ≠ v → ∃ s s', dget sep (u, v) = some s ∧ dget sep' (u, v) = some s' ∧ ∀ w, w ∈ s ↔ w ∈ s' := by
  have hn' : names'.Nodup := hperm.nodup_iff.1 hn
  have hN : ∀ w, w ∈ names ↔ w ∈ names' := fun w => hperm.mem_iff
  have hleg : ∀ u v z, Legal names' u v z → Legal names u v z := by
    unfold Legal; simp only [hN]; exact fun _ _ _ h => h
  have nr : ∀ s e, ¬ Raised test names s e := by
    rintro s e ⟨tr, s1, u, v, z, _, _, hl, he⟩
    obtain ⟨s2, h2⟩ := htest u v z s1 hl
    rw [he] at h2; cases h2
  have nr' : ∀ s e, ¬ Raised test names' s e := by
    rintro s e ⟨tr, s1, u, v, z, _, _, hl, he⟩
    obtain ⟨s2, h2⟩ := htest u v z s1 (hleg _ _ _ hl)
    rw [he] at h2; cases h2
  obtain ⟨⟨g, sep, st⟩, e, tr, hl, hs⟩ :=
    (adjacencySearch_spec (test := test) (alpha := alpha) (st0 := s0) hn).ok (nr s0)
  obtain ⟨⟨g', sep', st'⟩, e', tr', hl', hs'⟩ :=
    (adjacencySearch_spec (test := test) (alpha := alpha) (st0 := s0') hn').ok (nr' s0')
  have ha : ∀ q ∈ tr, q.p = t q.u q.v q.z := by
    intro q hq
    obtain ⟨s1, s2, h1⟩ := hs.ans.mem hq
    obtain ⟨s3, h3⟩ := htest q.u q.v q.z s1 (hs.legal q hq)
    rw [h1] at h3
    simp only [Except.ok.injEq, Prod.mk.injEq] at h3
    exact h3.1
  have ha' : ∀ q ∈ tr', q.p = t q.u q.v q.z := by
    intro q hq
    obtain ⟨s1, s2, h1⟩ := hs'.ans.mem hq
    obtain ⟨s3, h3⟩ := htest q.u q.v q.z s1 (hleg _ _ _ (hs'.legal q hq))
    rw [h1] at h3
    simp only [Except.ok.injEq, Prod.mk.injEq] at h3
    exact h3.1
  rw [← hperm.length_eq] at hl'
  obtain ⟨p1, p2⟩ := levels_perm ht hN hl hl' ha ha'
  have hkeep : ∀ u v, KeepOf names (Accepted alpha tr) u v ↔ KeepOf names' (Accepted alpha tr') u v := by
    intro u v
    unfold KeepOf
    rw [hN, hN]
    constructor
    · rintro ⟨a, b, c, d⟩
      refine ⟨a, b, c, fun z => ⟨fun hz => ?_, fun hz => ?_⟩⟩
      · obtain ⟨z', _, h⟩ := p2 _ _ _ hz; exact (d z').1 h
      · obtain ⟨z', _, h⟩ := p2 _ _ _ hz; exact (d z').2 h
    · rintro ⟨a, b, c, d⟩
      refine ⟨a, b, c, fun z => ⟨fun hz => ?_, fun hz => ?_⟩⟩
      · obtain ⟨z', _, h⟩ := p1 _ _ _ hz; exact (d z').1 h
      · obtain ⟨z', _, h⟩ := p1 _ _ _ hz; exact (d z').2 h
  have hw := hs.ug.pg.wf
  have hw' := hs'.ug.pg.wf
  have hnl : g.nodeList = names := hs.ug.nodes
  have hnl' : g'.nodeList = names' := hs'.ug.nodes
  have hmem : ∀ u, u ∈ g.nodeList ↔ u ∈ g'.nodeList := by
    intro u; rw [hnl, hnl', hN]
  have hc : ∀ u v, g.isConnected u v = g'.isConnected u v := by
    intro u v
    by_cases hm : u ∈ names ∧ v ∈ names
    · rw [hs.ug.isConnected hm.1 hm.2, hs'.ug.isConnected ((hN _).1 hm.1) ((hN _).1 hm.2)]
      rw [decide_eq_decide.2 (hkeep u v)]
    · rw [isConnected_err hw (by rw [hnl]; exact hm), isConnected_err hw' (by rw [hnl', ← hN, ← hN]; exact hm)]
  refine ⟨g, sep, st, g', sep', st', e, e', hc, fun u v => ?_, fun u hu v hv huv => ?_⟩
  · by_cases hm : u ∈ g.nodeList ∧ v ∈ g.nodeList
    · by_cases hcon : Conn g u v
      · have h1 := hs.ug.und u v hcon
        have h2 := hs'.ug.und u v (by unfold Conn at *; rw [← hc]; exact hcon)
        unfold Und at h1 h2
        rw [h1, h2]
      · have hcon' : ¬ Conn g' u v := by unfold Conn at *; rw [← hc]; exact hcon
        rw [conn_iff hw] at hcon
        rw [conn_iff hw'] at hcon'
        rw [getEdge_ok hw hm.1 hm.2, getEdge_ok hw' ((hmem _).1 hm.1) ((hmem _).1 hm.2)]
        rw [← edge?_isSome hw] at hcon
        rw [← edge?_isSome hw'] at hcon'
        rw [Option.not_isSome_iff_eq_none.1 hcon, Option.not_isSome_iff_eq_none.1 hcon']
    · rw [getEdge_err hw hm, getEdge_err hw' (by rw [← hmem, ← hmem]; exact hm)]
  · obtain ⟨s, e1, h1⟩ := hs.sep u hu v hv huv
    obtain ⟨s', e2, h2⟩ := hs'.sep u ((hN _).1 hu) v ((hN _).1 hv) huv
    refine ⟨s, s', e1, e2, fun w => ?_⟩
    rw [h1, h2]
    constructor
    · rintro ⟨z, hz | hz, hw⟩
      · obtain ⟨z', hp, h⟩ := p1 _ _ _ hz; exact ⟨z', Or.inl h, hp.mem_iff.2 hw⟩
      · obtain ⟨z', hp, h⟩ := p1 _ _ _ hz; exact ⟨z', Or.inr h, hp.mem_iff.2 hw⟩
    · rintro ⟨z, hz | hz, hw⟩
      · obtain ⟨z', hp, h⟩ := p2 _ _ _ hz; exact ⟨z', Or.inl h, hp.mem_iff.2 hw⟩
      · obtain ⟨z', hp, h⟩ := p2 _ _ _ hz; exact ⟨z', Or.inr h, hp.mem_iff.2 hw⟩

/-- **C31.** The same for `fast_adjacency_search`. -/
theorem c31_fast_true_skeleton {G : Graph α} (hG : Reachable .digraph G) (ac : Acyclic (Dir G)) (hperm : names.Perm G.nodes)
    {I : σ → Prop} (hp : Perfect (Dir G) names alpha test I) (hst : I st) :
    ∃ g sep st', fastAdjacencySearch test names alpha st = .ok (g, sep, st') ∧ I st' ∧ ReachableSimple .pdag g ∧
      g.nodes = names ∧ (∀ u v, Conn g u v ↔ Adj (Dir G) u v) ∧ ∀ u v, Conn g u v → Und g u v := by
  have hn : names.Nodup := hperm.nodup_iff.2 hG.dg.wf.nodup
  obtain ⟨⟨g, sep, st'⟩, e, tr, hs, hl⟩ :=
    (fastAdjacencySearch_spec (test := test) (alpha := alpha) (st0 := st) hn).ok (perfect_not_raised hp hst)
  obtain ⟨hi, hans⟩ := perfect_answers hp hs.ans hst hs.legal
  have hD : ∀ u v, Dir G u v → u ∈ names ∧ v ∈ names := by
    intro u v h
    have := Dir.mem hG.dg.wf h
    exact ⟨hperm.mem_iff.2 this.1, hperm.mem_iff.2 this.2⟩
  exact ⟨g, sep, st', e, hi, hs.ug.rs, hs.ug.nodes,
    fun u v => (hs.ug.conn u v).trans (fast_skeleton ac hD hn hl hans u v), hs.ug.und⟩

/-- **C31, any test.** What `fast_adjacency_search` guarantees without an oracle: removal only on evidence, the
separating sets are unions of accepted sets, and about every remaining edge every set of fewer than `n - 1` remaining
neighbours of either end was asked and rejected. -/
theorem c31_fast_evidence (hn : names.Nodup) (h : fastAdjacencySearch test names alpha st = .ok (g, sep, st')) :
    ReachableSimple .pdag g ∧ g.nodes = names ∧ (∀ u v, Conn g u v → Und g u v) ∧
    ∃ tr, Answers test st tr st' ∧ (∀ q ∈ tr, Legal names q.u q.v q.z) ∧
      (∀ u v, Conn g u v ↔ KeepOf names (Accepted alpha tr) u v) ∧ SepOf names (Accepted alpha tr) sep ∧
      ∀ u v z, (u, v) ∈ pairs names → Conn g u v → z.Nodup → z.length < names.length - 1 →
        ((∀ w ∈ z, Conn g u w ∧ w ≠ v) ∨ ∀ w ∈ z, Conn g v w ∧ w ≠ u) →
        ∃ q ∈ tr, q.u = u ∧ q.v = v ∧ q.z.Perm z ∧ ¬ alpha ≤ q.p := by
  have := fastAdjacencySearch_spec (test := test) (alpha := alpha) (st0 := st) hn
  rw [h] at this
  obtain ⟨tr, hs, hl⟩ := this
  refine ⟨hs.ug.rs, hs.ug.nodes, hs.ug.und, tr, hs.ans, hs.legal, hs.ug.conn, hs.sep, ?_⟩
  intro u v z h1 h2 h3 h4 h5
  have hk := (hs.ug.conn u v).1 h2
  simp only [hs.ug.conn] at h5
  obtain ⟨q, hq, e1, e2, e3⟩ := hl z.length u v ⟨h4, h1⟩ hk z h3 rfl h5
  refine ⟨q, hq, e1, e2, e3, fun hp => (hk.2.2.2 q.z).1 ⟨q.p, hp, ?_⟩⟩
  obtain ⟨_, _, _, _⟩ := q
  simp only at e1 e2
  subst e1 e2
  exact hq

/-- The orientation phase of `PC.fit` on a skeleton with a full table of separating sets. -/
theorem pc_orient {A : α → α → List α → Prop} {K : α → α → Prop} (hug : UG names K g) (hsep : SepOf names A sep) :
    ∃ g1 g2, g.rule0 sep = .ok g1 ∧ g1.orientByMeekRules = .ok g2 ∧ ReachableSimple .pdag g2 ∧ g2.nodes = g.nodes ∧
      (∀ u v, g2.isConnected u v = g.isConnected u v) ∧
      ∀ u v, Conn g2 u v → Und g2 u v ∨ Dir g2 u v ∨ Dir g2 v u := by
  have hp := hug.pg
  have hs : ∀ p ∈ pairs g.nodeList, ¬ Conn g p.1 p.2 → (dget sep p).isSome := by
    rintro ⟨a, b⟩ hp _
    rw [hug.nodes] at hp
    have hm := mem_pairs_mem hp
    obtain ⟨s, hs, _⟩ := hsep a hm.1 b hm.2 (mem_pairs_ne hug.nodup hp)
    rw [hs]; rfl
  obtain ⟨g1, e1, r, _⟩ := rule0_spec hp hs
  obtain ⟨g2, e2, _, hst, _⟩ := orientByMeekRules_spec (N := g1.nodeList) ⟨r.pg, rfl⟩
  have ho := ReflSteps.oriented r.pg hst
  have hc2 : ∀ u v, Conn g2 u v ↔ Conn g u v := fun u v => (ho.conn u v).trans (r.conn u v)
  have hpg2 := ho.via.PG r.pg
  refine ⟨g1, g2, e1, e2, (r.via.trans ho.via).reachableSimple hug.rs, ho.nodes.trans r.nodes,
    isConnected_congr hp.wf hpg2.wf (ho.nodes.trans r.nodes) hc2, ?_⟩
  intro u v hc
  have hgc := (hc2 u v).1 hc
  have hne : u ≠ v := by
    rintro rfl
    have := hug.rs
    obtain ⟨l, g0, ops, h0, hsimple, rfl⟩ := this
    obtain ⟨hw0, _, _, hm0⟩ := init_WF h0
    have hl : Graph.NoLoop (g0.run ops) := run_noLoop (init_good h0).1 (fun u => hm0 u u) ops
      (fun o ho e he => hsimple o ho e (by cases o <;> exact he))
    rw [conn_iff hp.wf, hl] at hgc
    simp at hgc
  have h1 : Und g1 u v ∨ Dir g1 u v ∨ Dir g1 v u := by
    rcases r.edge u v hne with h | h | h
    · left
      have := hug.und u v hgc
      unfold Und at *
      rw [h]; exact this
    · exact Or.inr (Or.inl h.1)
    · exact Or.inr (Or.inr h.1)
  have keepD : ∀ a b, Dir g1 a b → Dir g2 a b := by
    intro a b hd
    have := ho.keep a b (Or.inl (Dir.not_und r.pg.wf hd))
    unfold Dir at *
    rw [this]; exact hd
  rcases h1 with h | h | h
  · exact ho.und u v h hne
  · exact Or.inr (Or.inl (keepD _ _ h))
  · exact Or.inr (Or.inr (keepD _ _ h))

/-- **C33.** `PC.fit` with either search method: it raises only when the test does (or for duplicate names), and
afterwards `skeleton` is undirected, `causal_graph` has the same nodes and adjacencies and only directed or undirected
edges, and `sep_set` has an entry for every ordered pair. -/
theorem c33_pc_fit (hn : names.Nodup)
    (search : CITest α σ P → List α → P → σ → Except Err (Graph α × Sep α × σ))
    (hsearch : search = adjacencySearch ∨ search = fastAdjacencySearch)
    (htest : ∀ u v z s, Legal names u v z → ∃ p s', test u v z s = .ok (p, s')) :
    ∃ r st', pcFit search test names alpha st = .ok (r, st') ∧ search test names alpha st = .ok (r.skeleton, r.sepSet, st') ∧
      r.skeleton.nodes = names ∧ r.causal.nodes = names ∧ (∀ u v, Conn r.skeleton u v → Und r.skeleton u v) ∧
      (∀ u v, r.causal.isConnected u v = r.skeleton.isConnected u v) ∧
      (∀ u v, Conn r.causal u v → Und r.causal u v ∨ Dir r.causal u v ∨ Dir r.causal v u) ∧
      ∀ u ∈ names, ∀ v ∈ names, u ≠ v → ∃ s, dget r.sepSet (u, v) = some s := by
  have nr : ∀ e, ¬ Raised test names st e := by
    rintro e ⟨tr, s1, u, v, z, _, _, hl, he⟩
    obtain ⟨p, s2, h2⟩ := htest u v z s1 hl
    rw [he] at h2; cases h2
  have hres : ∃ g sep st' tr, search test names alpha st = .ok (g, sep, st') ∧ SI test alpha names st tr (g, sep, st') := by
    rcases hsearch with rfl | rfl
    · obtain ⟨⟨g, sep, st'⟩, e, tr, _, hs⟩ := (adjacencySearch_spec (test := test) (alpha := alpha) (st0 := st) hn).ok nr
      exact ⟨g, sep, st', tr, e, hs⟩
    · obtain ⟨⟨g, sep, st'⟩, e, tr, hs, _⟩ := (fastAdjacencySearch_spec (test := test) (alpha := alpha) (st0 := st) hn).ok nr
      exact ⟨g, sep, st', tr, e, hs⟩
  obtain ⟨g, sep, st', tr, e, hs⟩ := hres
  obtain ⟨g1, g2, e1, e2, _, hn2, hc2, hd⟩ := pc_orient hs.ug hs.sep
  refine ⟨⟨g, sep, g2⟩, st', ?_, e, hs.ug.nodes, hn2.trans hs.ug.nodes, hs.ug.und, hc2, hd, ?_⟩
  · unfold pcFit
    rw [e]
    simp only [bind, Except.bind]
    rw [e1]
    simp only
    rw [e2]
    rfl
  · intro u hu v hv huv
    obtain ⟨s, h, _⟩ := hs.sep u hu v hv huv
    exact ⟨s, h⟩

/-- **C32 for any perfect oracle.** `PC.fit` (with either search) leaves the graph that `dag2cpdag` computes. -/
theorem c32_pc_oracle {G : Graph α} (hG : Reachable .digraph G) (ac : Acyclic (Dir G)) {so : List α → List α}
    (hso : ∀ l, (so l).Perm l) {I : σ → Prop} (hp : Perfect (Dir G) G.nodes alpha test I) (hst : I st)
    (search : CITest α σ P → List α → P → σ → Except Err (Graph α × Sep α × σ))
    (hsearch : search = adjacencySearch ∨ search = fastAdjacencySearch) :
    ∃ r st' c, pcFit search test G.nodes alpha st = .ok (r, st') ∧ dag2cpdag so G = .ok c ∧
      r.causal.graphEqual c = .ok true ∧ ∀ u v, r.causal.getEdge u v = c.getEdge u v := by
  have hn : G.nodes.Nodup := hG.dg.wf.nodup
  have nr := perfect_not_raised hp hst
  have hD : ∀ u v, Dir G u v → u ∈ G.nodes ∧ v ∈ G.nodes := fun u v h => Dir.mem hG.dg.wf h
  have hres : ∃ g sep st' tr, search test G.nodes alpha st = .ok (g, sep, st') ∧ SI test alpha G.nodes st tr (g, sep, st') ∧
      ∀ u v, KeepOf G.nodes (Accepted alpha tr) u v ↔ Adj (Dir G) u v := by
    rcases hsearch with rfl | rfl
    · obtain ⟨⟨g, sep, st'⟩, e, tr, hl, hs⟩ := (adjacencySearch_spec (test := test) (alpha := alpha) (st0 := st) hn).ok nr
      obtain ⟨_, hans⟩ := perfect_answers hp hs.ans hst hs.legal
      exact ⟨g, sep, st', tr, e, hs, levels_skeleton ac hD hn hl hs.legal hans⟩
    · obtain ⟨⟨g, sep, st'⟩, e, tr, hs, hl⟩ := (fastAdjacencySearch_spec (test := test) (alpha := alpha) (st0 := st) hn).ok nr
      obtain ⟨_, hans⟩ := perfect_answers hp hs.ans hst hs.legal
      exact ⟨g, sep, st', tr, e, hs, fast_skeleton ac hD hn hl hans⟩
  obtain ⟨g, sep, st', tr, e, hs, hk⟩ := hres
  obtain ⟨_, hans⟩ := perfect_answers hp hs.ans hst hs.legal
  have hug := hs.ug.congr hk
  obtain ⟨g1, e1, hpat⟩ := rule0_pattern ac hug (A := Accepted alpha tr) (sep := sep) (by
      rintro a b z ⟨p, h1, h2⟩
      exact (hans _ h2).1 h1) (by
      intro a ha b hb hab hna
      by_contra hne
      exact hna ((hk a b).1 ⟨ha, hb, hab, fun z => ⟨fun h => hne ⟨z, Or.inl h⟩, fun h => hne ⟨z, Or.inr h⟩⟩⟩)) hs.sep
  obtain ⟨p, c, ec, hp', em, _, ho⟩ := dag2cpdag_steps hso hG ac
  have hsame := (IsPattern.same hpat hp' (fun _ _ => Iff.rfl) (fun _ _ _ => Iff.rfl)).orientByMeekRules
  rw [em] at hsame
  cases e2 : g1.orientByMeekRules with
  | error x => rw [e2] at hsame; exact hsame.elim
  | ok g2 =>
    rw [e2] at hsame
    have hsame : Same g2 c := hsame
    obtain ⟨g2', e2', hng, _⟩ := orientByMeekRules_spec (N := g1.nodeList) ⟨hpat.pg, rfl⟩
    rw [e2] at e2'
    cases e2'
    have hgc := ho.via.PG hp'.pg
    refine ⟨⟨g, sep, g2⟩, st', c, ?_, ec, hsame.graphEqual hng.1.good hgc.good (by rw [hng.1.kind]; simp), hsame.getEdge⟩
    unfold pcFit
    rw [e]
    simp only [bind, Except.bind]
    rw [e1]
    simp only
    rw [e2]
    rfl

end

section examples

/-- An oracle answering from a graph, counting its calls: p-value 1 for d-separated, 0 otherwise. -/
def exOracle (G : Graph Nat) : CITest Nat Nat Nat := fun u v z s => do
  let b ← G.isDSeparate u v (.reiterable z)
  pure (if b then 1 else 0, s + 1)

theorem exOracle_perfect {G : Graph Nat} (h : Reachable .digraph G) {N : List Nat} (hN : N.Perm G.nodes) :
    Perfect (Dir G) N 1 (exOracle G) (fun _ => True) := by
  rintro u v z ⟨h1, _, _, h4, _, h6, h7⟩ s _
  obtain ⟨b, hb, hi⟩ := c09_dsep h u v z (hN.mem_iff.1 h1) (fun w hw => hN.mem_iff.1 (h4 w hw)) h6 h7
  refine ⟨if b then 1 else 0, s + 1, ?_, trivial, ?_⟩
  · unfold exOracle; rw [hb]; rfl
  · rw [← hi]; cases b <;> simp

/-- C28, C31, C32, C33 apply to `exCollDag` and its oracle; the variables of C28 in another order. -/
example := c28_true_skeleton (names := [4, 3, 2, 1]) (st := 0) exCollDag_reachable exCollDag_acyclic (by decide)
  (exOracle_perfect exCollDag_reachable (by decide)) trivial
example := c31_fast_true_skeleton (names := [4, 3, 2, 1]) (st := 0) exCollDag_reachable exCollDag_acyclic (by decide)
  (exOracle_perfect exCollDag_reachable (by decide)) trivial
example := c32_pc_oracle (st := 0) exCollDag_reachable exCollDag_acyclic (so := List.reverse) (fun l => List.reverse_perm l)
  (exOracle_perfect exCollDag_reachable (List.Perm.refl _)) trivial fastAdjacencySearch (Or.inr rfl)

/-- Both searches find the three edges; the stable one asks more questions. -/
example : (adjacencySearch (exOracle exCollDag) [4, 3, 2, 1] 1 0).map (fun r => (r.1.edges, dget r.2.1 (1, 4), dget r.2.1 (1, 2))) =
      .ok (.ok [uE 4 3, uE 3 2, uE 3 1], some [3], some []) ∧
    (fastAdjacencySearch (exOracle exCollDag) [4, 3, 2, 1] 1 0).map (fun r => (r.1.edges, r.2.2)) =
      .ok (.ok [uE 4 3, uE 3 2, uE 3 1], 28) ∧
    (adjacencySearch (exOracle exCollDag) [4, 3, 2, 1] 1 0).map (fun r => r.2.2) = .ok 31 := by decide +kernel

/-- A test that is no oracle of anything: accepts exactly questions whose conditioning set contains 2, raises never. -/
def exTest : CITest Nat Unit Nat := fun u v z s => .ok (if 2 ∈ z then u + v else 0, s)

example := c30_order_independent (test := exTest) (alpha := 1) (t := fun u v z => if 2 ∈ z then u + v else 0)
  (fun u v z z' h => by simp only [h.mem_iff]) (names := [1, 2, 3, 4]) (names' := [3, 1, 4, 2]) (by decide) (by decide)
  (fun u v z s _ => ⟨s, rfl⟩) () ()
example := c33_pc_fit (test := exTest) (alpha := 1) (st := ()) (names := [1, 2, 3, 4]) (by decide) adjacencySearch (Or.inl rfl)
  (fun u v z s _ => ⟨_, s, rfl⟩)
example : (adjacencySearch exTest [1, 2, 3, 4] 1 ()).map (fun r => (r.1.edges, dget r.2.1 (3, 4), dget r.2.1 (1, 2))) =
    .ok (.ok [uE 1 2, uE 2 3, uE 2 4], some [2], some []) := by decide +kernel

/-- A test that raises: the exception comes through, and so does the assertion for duplicate names. -/
example : adjacencySearch (α := Nat) (P := Nat) (fun u _ z s => if z.length = 1 ∧ u = 3 then .error .value else .ok (0, s + 1)) [1, 2, 3] 1 0 =
      .error .value ∧
    adjacencySearch exTest [1, 2, 1] 1 () = .error .assertion := by
  constructor <;> rfl

end examples
end Cdmir
