import Verif.Props.GES
import Verif.Props.CpdagExact
import Verif.Lemmas.GESValid
import Verif.Lemmas.FamScore

/-! Properties C55 and C56: the operators of GES on completed PDAGs, and the meaning of the result of `fit`. -/

set_option linter.unusedSectionVars false

namespace Cdmir
open Graph Spec GES

section
variable {α : Type} [DecidableEq α] {K : Type} [Field K] [LinearOrder K] [IsStrictOrderedRing K] {g : Graph α} {G : α → α → Prop}

/-- **C55, Insert.** A valid insertion into the completed PDAG of the DAG `G`: `pdag2dag` of the changed graph returns within
as many rounds as there are nodes, its result is equivalent to a member of the class of `G` with the edge `i -> j` added, and
its score is the score of `G` plus the reported change. -/
theorem c55_insert (h : ReachableSimple .pdag g) (hdu : ∀ u v, Conn g u v → Dir g u v ∨ Dir g v u ∨ Und g u v)
    (ac : Acyclic G) (fin : ∀ a b, G a b → a ∈ g.nodes ∧ b ∈ g.nodes) (hc : IsCpdag G g) {maxP : ℚ} {i j : α} {T : List α}
    (hv : ValidInsert g maxP i j T) :
    ∃ g1 d, insertOp g i j T = .ok g1 ∧ pdag2dag g.nodes.length g1 = .ok d ∧
      (∃ D : α → α → Prop, InClass G D ∧ ¬ Adj D i j ∧ InClass (fun a b => D a b ∨ (a = i ∧ b = j)) (Dir d)) ∧
      ∀ score : α → List α → K, SetScore score → ScoreEquiv score g.nodes → ∀ c s t, InsertChange score g i j T c →
        DagScore score g.nodes G s → DagScore score g.nodes (Dir d) t → t = s + c := by
  have hC : Comp G g := ⟨⟨h, hdu⟩, ac, fin, hc⟩
  obtain ⟨g1, e1, f⟩ := insertOp_eff hC.du hv.memi hv.memj hv.ne hv.apart (fun t ht => (hv.cand t ht).1)
  obtain ⟨A, B, hA, hB, _, hAB⟩ := hC.insert hv f
  obtain ⟨d, ed⟩ := pdag2dag_ok f.du hB
  rw [f.nodes] at ed
  have hd := pdag2dag_ends f.du g.nodeList.length
  rw [ed] at hd
  obtain ⟨_, _, hx⟩ : ReachableSimple .digraph d ∧ d.nodeList = g1.nodeList ∧ Extends (Dir d) g1 := hd
  refine ⟨g1, d, e1, ed, ⟨A, extends_inClass hC.extends hA, fun k => hv.apart ((hA.adj i j).1 k).2, ?_⟩, ?_⟩
  · have : B = fun a b => A a b ∨ (a = i ∧ b = j) := by funext a b; exact propext (hAB a b)
    rw [← this]
    exact extends_inClass hB hx
  · intro score hsc hse c s t hch hs ht
    exact (hC.insert_score hsc hse hv f hch).2 G (Dir d) hC.extends hx s t hs ht

/-- **C55, every insertion.** Adding an edge to any member of the class, without making a cycle, is one of the valid
insertions: `pdag2dag` of the graph changed by it is equivalent to the member with the edge. -/
theorem c55_insert_complete (h : ReachableSimple .pdag g) (hdu : ∀ u v, Conn g u v → Dir g u v ∨ Dir g v u ∨ Und g u v)
    (ac : Acyclic G) (fin : ∀ a b, G a b → a ∈ g.nodes ∧ b ∈ g.nodes) (hc : IsCpdag G g) {D : α → α → Prop} (hD : InClass G D)
    {i j : α} (hi : i ∈ g.nodes) (hj : j ∈ g.nodes) (hna : ¬ Adj D i j)
    (hac : Acyclic (fun a b => D a b ∨ (a = i ∧ b = j))) {maxP : ℚ}
    (hmax : ∀ l : List α, l.Nodup → (∀ p ∈ l, Dir g p j) → (l.length : ℚ) ≤ maxP) :
    ∃ T g1 d, ValidInsert g maxP i j T ∧ insertOp g i j T = .ok g1 ∧ pdag2dag g.nodes.length g1 = .ok d ∧
      InClass (fun a b => D a b ∨ (a = i ∧ b = j)) (Dir d) := by
  have hC : Comp G g := ⟨⟨h, hdu⟩, ac, fin, hc⟩
  obtain ⟨T, hv, _, hT⟩ := hC.insert_complete hD hi hj hna hac hmax
  obtain ⟨g1, e1, f⟩ := insertOp_eff hC.du hv.memi hv.memj hv.ne hv.apart (fun t ht => (hv.cand t ht).1)
  have hB := hT g1 f
  obtain ⟨d, ed⟩ := pdag2dag_ok f.du hB
  rw [f.nodes] at ed
  have hd := pdag2dag_ends f.du g.nodeList.length
  rw [ed] at hd
  exact ⟨T, g1, d, hv, e1, ed, extends_inClass hB (show _ ∧ _ ∧ Extends (Dir d) g1 from hd).2.2⟩

/-- **C55, Delete.** -/
theorem c55_delete (h : ReachableSimple .pdag g) (hdu : ∀ u v, Conn g u v → Dir g u v ∨ Dir g v u ∨ Und g u v)
    (ac : Acyclic G) (fin : ∀ a b, G a b → a ∈ g.nodes ∧ b ∈ g.nodes) (hc : IsCpdag G g) {i j : α} {H : List α}
    (hv : ValidDelete g i j H) :
    ∃ g1 d, deleteOp g i j H = .ok g1 ∧ pdag2dag g.nodes.length g1 = .ok d ∧
      (∃ D : α → α → Prop, InClass G D ∧ D i j ∧ InClass (fun a b => D a b ∧ ¬ (a = i ∧ b = j)) (Dir d)) ∧
      ∀ score : α → List α → K, SetScore score → ScoreEquiv score g.nodes → ∀ c s t, DeleteChange score g i j H c →
        DagScore score g.nodes G s → DagScore score g.nodes (Dir d) t → t = s + c := by
  have hC : Comp G g := ⟨⟨h, hdu⟩, ac, fin, hc⟩
  have hcon : Conn g i j := hv.edge.elim (fun k => Dir.conn hC.du.wf k) (fun k => Und.conn hC.du.wf k)
  have hm := Conn.mem hC.du.wf hcon
  obtain ⟨g1, e1, f⟩ := deleteOp_eff hC.du hm.1 hm.2 (hC.du.ne hcon) hv.cand
  obtain ⟨A, B, hA, hB, aij, _, hAB⟩ := hC.delete hv f
  obtain ⟨d, ed⟩ := pdag2dag_ok f.du hB
  rw [f.nodes] at ed
  have hd := pdag2dag_ends f.du g.nodeList.length
  rw [ed] at hd
  obtain ⟨_, _, hx⟩ : ReachableSimple .digraph d ∧ d.nodeList = g1.nodeList ∧ Extends (Dir d) g1 := hd
  refine ⟨g1, d, e1, ed, ⟨A, extends_inClass hC.extends hA, aij, ?_⟩, ?_⟩
  · have : B = fun a b => A a b ∧ ¬ (a = i ∧ b = j) := by funext a b; exact propext (hAB a b)
    rw [← this]
    exact extends_inClass hB hx
  · intro score hsc hse c s t hch hs ht
    exact (hC.delete_score hsc hse hv f hch).2 G (Dir d) hC.extends hx s t hs ht

/-- **C55, every deletion.** -/
theorem c55_delete_complete (h : ReachableSimple .pdag g) (hdu : ∀ u v, Conn g u v → Dir g u v ∨ Dir g v u ∨ Und g u v)
    (ac : Acyclic G) (fin : ∀ a b, G a b → a ∈ g.nodes ∧ b ∈ g.nodes) (hc : IsCpdag G g) {D : α → α → Prop} (hD : InClass G D)
    {i j : α} (hij : D i j) :
    ∃ H g1 d, ValidDelete g i j H ∧ deleteOp g i j H = .ok g1 ∧ pdag2dag g.nodes.length g1 = .ok d ∧
      InClass (fun a b => D a b ∧ ¬ (a = i ∧ b = j)) (Dir d) := by
  have hC : Comp G g := ⟨⟨h, hdu⟩, ac, fin, hc⟩
  obtain ⟨H, hv, _, hT⟩ := hC.delete_complete hD hij
  have hcon : Conn g i j := hv.edge.elim (fun k => Dir.conn hC.du.wf k) (fun k => Und.conn hC.du.wf k)
  have hm := Conn.mem hC.du.wf hcon
  obtain ⟨g1, e1, f⟩ := deleteOp_eff hC.du hm.1 hm.2 (hC.du.ne hcon) hv.cand
  have hB := hT g1 f
  obtain ⟨d, ed⟩ := pdag2dag_ok f.du hB
  rw [f.nodes] at ed
  have hd := pdag2dag_ends f.du g.nodeList.length
  rw [ed] at hd
  exact ⟨H, g1, d, hv, e1, ed, extends_inClass hB (show _ ∧ _ ∧ Extends (Dir d) g1 from hd).2.2⟩

omit [DecidableEq α] in
theorem Spec.Rounds.trans {β : Type} {R : β → β → Prop} {k : Nat} {s t : β} (h : Rounds R k s t) : Relation.ReflTransGen R s t := by
  induction h with
  | zero => exact .refl
  | succ _ q ih => exact ih.tail q

/-- What holds of every state of `fit`: proof device. -/
structure Right (score : α → List α → K) (names : List α) (s : Graph α × K) (G : α → α → Prop) : Prop where
  comp : Comp G s.1
  nodes : s.1.nodeList = names
  score : DagScore score names G s.2

theorem right_next {score : α → List α → K} (hsc : SetScore score) {names : List α} {so : List α → List α}
    (hso : ∀ l, (so l).Perm l) {s s' : Graph α × K} {g1 d : Graph α} {c : K} (hns : s.1.nodeList = names) (h1 : DU g1)
    (hd : ReachableSimple .digraph d) (hn : d.nodes = s.1.nodes) (hx : Extends (Dir d) g1)
    (e : dag2cpdag so d = .ok s'.1) (es : s'.2 = s.2 + c)
    (hsound : ∀ D, InClass (Dir d) D → ∀ u v, Dir s'.1 u v → D u v)
    (hch : ∀ t, DagScore score names (Dir d) t → t = s.2 + c) : Right score names s' (Dir d) := by
  obtain ⟨k1, k2, _⟩ := completed h1 hso hd hx e
  have hdn : d.nodeList = names := hn.trans hns
  obtain ⟨c', e', hex⟩ := c24_exact_partial hso hd.toReachable hx.acyclic
  rw [e] at e'
  obtain rfl := Except.ok.inj e'
  have hw := hd.toReachable.dg.wf
  have fin : ∀ a b, Dir d a b → a ∈ names ∧ b ∈ names := fun a b k => hdn ▸ Dir.mem hw k
  have hsn : s'.1.nodeList = names := k2.trans hdn
  refine ⟨⟨k1, hx.acyclic, hsn ▸ fin, hex.2 hsound⟩, hsn, ?_⟩
  have := dagScore_exists (hdn ▸ hw.nodup) hsc (fun a b k => (fin a b k).1)
  rw [es, ← hch _ this]
  exact this

theorem right_insert {score : α → List α → K} (hsc : SetScore score) {names : List α} (hse : ScoreEquiv score names)
    {so : List α → List α} (hso : ∀ l, (so l).Perm l) {maxP : ℚ} {s s' : Graph α × K} {G : α → α → Prop}
    (hR : Right score names s G) (r : InsertRound so maxP score s s')
    (hsound : ∀ i j T c g1 d, BestInsert maxP score s.1 i j T c → insertOp s.1 i j T = .ok g1 → ReachableSimple .digraph d →
      d.nodes = s.1.nodes → Extends (Dir d) g1 → dag2cpdag so d = .ok s'.1 → ∀ D, InClass (Dir d) D → ∀ u v, Dir s'.1 u v → D u v) :
    ∃ G', Right score names s' G' := by
  obtain ⟨i, j, T, c, g1, d, hB, e1, hd, hn, he, ec, es⟩ := r
  have hv := hB.valid
  obtain ⟨x, e, f⟩ := insertOp_eff hR.comp.du hv.memi hv.memj hv.ne hv.apart (fun t ht => (hv.cand t ht).1)
  have e1' := e1
  rw [e] at e1'
  obtain rfl := Except.ok.inj e1'
  have hsn := hR.nodes
  refine ⟨_, right_next hsc hso hR.nodes f.du hd hn he ec es (hsound i j T c x d hB e1 hd hn he ec) ?_⟩
  intro t ht
  subst hsn
  exact (hR.comp.insert_score hsc hse hv f hB.change).2 G (Dir d) hR.comp.extends he _ t hR.score ht

theorem right_delete {score : α → List α → K} (hsc : SetScore score) {names : List α} (hse : ScoreEquiv score names)
    {so : List α → List α} (hso : ∀ l, (so l).Perm l) {s s' : Graph α × K} {G : α → α → Prop}
    (hR : Right score names s G) (r : DeleteRound so score s s')
    (hsound : ∀ i j T c g1 d, BestDelete score s.1 i j T c → deleteOp s.1 i j T = .ok g1 → ReachableSimple .digraph d →
      d.nodes = s.1.nodes → Extends (Dir d) g1 → dag2cpdag so d = .ok s'.1 → ∀ D, InClass (Dir d) D → ∀ u v, Dir s'.1 u v → D u v) :
    ∃ G', Right score names s' G' := by
  obtain ⟨i, j, T, c, g1, d, hB, e1, hd, hn, he, ec, es⟩ := r
  have hv := hB.valid
  have hcon : Conn s.1 i j := hv.edge.elim (fun k => Dir.conn hR.comp.du.wf k) (fun k => Und.conn hR.comp.du.wf k)
  have hm := Conn.mem hR.comp.du.wf hcon
  obtain ⟨x, e, f⟩ := deleteOp_eff hR.comp.du hm.1 hm.2 (hR.comp.du.ne hcon) hv.cand
  have e1' := e1
  rw [e] at e1'
  obtain rfl := Except.ok.inj e1'
  have hsn := hR.nodes
  refine ⟨_, right_next hsc hso hR.nodes f.du hd hn he ec es (hsound i j T c x d hB e1 hd hn he ec) ?_⟩
  intro t ht
  subst hsn
  exact (hR.comp.delete_score hsc hse hv f hB.change).2 G (Dir d) hR.comp.extends he _ t hR.score ht

theorem right_start {names : List α} {score : α → List α → K} {g0 : Graph α} (h0 : ReachableSimple .pdag g0)
    (n0 : g0.nodes = names) (c0 : ∀ u v, ¬ Conn g0 u v) :
    Right score names (g0, (names.map (fun v => score v [])).sum) (fun _ _ => False) := by
  have hw := h0.reachable.pg.wf
  have ac : Acyclic (fun _ _ : α => False) := fun x k => by
    cases k with
    | single k => exact k
    | tail _ k => exact k
  have hno : ∀ {D : α → α → Prop}, InClass (fun _ _ => False) D → ∀ u v, ¬ D u v :=
    fun hD u v k => ((hD.adj u v).1 (Or.inl k)).elim id id
  refine ⟨⟨⟨h0, fun u v k => absurd k (c0 u v)⟩, ac, fun _ _ k => k.elim, fun u v => ⟨fun k => absurd (Dir.conn hw k) (c0 u v),
    fun k => (k _ (Complete.InClass.self ac)).elim⟩, fun u v => ⟨fun k => absurd (Und.conn hw k) (c0 u v),
    fun k => ?_⟩⟩, n0, fun pa hpa => ?_⟩
  · obtain ⟨⟨D, hD, q⟩, _⟩ := k
    exact absurd q (hno hD u v)
  · have : ∀ v, pa v = [] := fun v => List.eq_nil_iff_forall_not_mem.2 (fun x hx => ((hpa v).2 x).1 hx)
    simp [this]

/-- What the result means: the graph is the completed PDAG of a DAG, the score reported is the score of that DAG, and no DAG
that arises from a member of the class by removing one edge scores higher. -/
theorem right_deleteOptimal {score : α → List α → K} (hsc : SetScore score) {names : List α} (hse : ScoreEquiv score names)
    {s : Graph α × K} {G : α → α → Prop} (hR : Right score names s G) (ho : DeleteOptimal score s.1) {D : α → α → Prop}
    (hD : InClass G D) {i j : α} (hij : D i j) {t : K} (ht : DagScore score names (fun a b => D a b ∧ ¬ (a = i ∧ b = j)) t) :
    t ≤ s.2 := by
  obtain ⟨H, hv, _, hT⟩ := hR.comp.delete_complete hD hij
  have hcon : Conn s.1 i j := hv.edge.elim (fun k => Dir.conn hR.comp.du.wf k) (fun k => Und.conn hR.comp.du.wf k)
  have hm := Conn.mem hR.comp.du.wf hcon
  obtain ⟨g1, _, f⟩ := deleteOp_eff hR.comp.du hm.1 hm.2 (hR.comp.du.ne hcon) hv.cand
  have hsn := hR.nodes
  subst hsn
  have hE := inClass_extends hR.comp hD
  have sD := dagScore_exists hR.comp.du.wf.nodup hsc (fun a b k => (extends_fin hR.comp.du.wf hE a b k).1)
  have hch := delDelta_spec (t := H) hR.comp.du hsc (i := i) (j := j) hm.1
  have h0 := ho i j H _ hv hch
  have h1 := (hR.comp.delete_score hsc hse hv f hch).2 D _ hE (hT g1 f) _ t sD ht
  have h2 := hse G D hR.comp.fin hR.comp.ac hD _ _ hR.score sD
  linarith

theorem right_insertOptimal {score : α → List α → K} (hsc : SetScore score) {names : List α} (hse : ScoreEquiv score names)
    {s : Graph α × K} {G : α → α → Prop} (hR : Right score names s G) {maxP : ℚ} (ho : InsertOptimal maxP score s.1)
    {D : α → α → Prop} (hD : InClass G D) {i j : α} (hi : i ∈ names) (hj : j ∈ names) (hna : ¬ Adj D i j)
    (hac : Acyclic (fun a b => D a b ∨ (a = i ∧ b = j)))
    (hmax : ∀ l : List α, l.Nodup → (∀ p ∈ l, Dir s.1 p j) → (l.length : ℚ) ≤ maxP) {t : K}
    (ht : DagScore score names (fun a b => D a b ∨ (a = i ∧ b = j)) t) : t ≤ s.2 := by
  have hsn := hR.nodes
  subst hsn
  obtain ⟨T, hv, _, hT⟩ := hR.comp.insert_complete hD hi hj hna hac hmax
  obtain ⟨g1, _, f⟩ := insertOp_eff hR.comp.du hv.memi hv.memj hv.ne hv.apart (fun t ht => (hv.cand t ht).1)
  have hE := inClass_extends hR.comp hD
  have sD := dagScore_exists hR.comp.du.wf.nodup hsc (fun a b k => (extends_fin hR.comp.du.wf hE a b k).1)
  have hch := insDelta_spec (t := T) hR.comp.du hsc (i := i) (j := j) hi
    (fun t ht => (Conn.mem hR.comp.du.wf (Und.conn hR.comp.du.wf (hv.cand t ht).1)).1)
  have h0 := ho i j T _ hv hch
  have h1 := (hR.comp.insert_score hsc hse hv f hch).2 D _ hE (hT g1 f) _ t sD ht
  have h2 := hse G D hR.comp.fin hR.comp.ac hD _ _ hR.score sD
  linarith

/-- **C56.** `GES.fit` with a decomposable score that is equal on equivalent DAGs. Provided that in this run `dag2cpdag` never
chooses a direction that is missing in some member of the class, `fit` returns. The graph it returns is the completed PDAG of
a DAG, the score it reports is the score of the DAGs of this class, and removing an edge from any of these DAGs does not give a
greater score. The forward phase ended in a class from which adding an edge, to a node with at most `maxP` directed parents,
does not give a greater score, and the score of the result is not lower than that. (Without the proviso the claim is false:
`c56_wrong_score`, `c56_hangs`.) -/
theorem c56_fit_partial {names : List α} (hN : names.Nodup) {so : List α → List α} (hso : ∀ l, (so l).Perm l)
    {score : α → List α → K} (hsc : SetScore score) (hse : ScoreEquiv score names) (maxP : ℚ) :
    ∃ g0 : Graph α, ReachableSimple .pdag g0 ∧ g0.nodes = names ∧ (∀ u v, ¬ Conn g0 u v) ∧
      ((∀ d c, Visited so maxP score (g0, (names.map (fun v => score v [])).sum) d → dag2cpdag so d = .ok c →
          ∀ D, InClass (Dir d) D → ∀ u v, Dir c u v → D u v) →
        ∃ (g : Graph α) (s : K) (N : Nat) (G : α → α → Prop), (∀ n, N ≤ n → fit n so maxP score names = .ok (g, s)) ∧
          ReachableSimple .pdag g ∧ g.nodes = names ∧ Acyclic G ∧ IsCpdag G g ∧ DagScore score names G s ∧
          (∀ D, InClass G D → ∀ i j, D i j → ∀ t, DagScore score names (fun a b => D a b ∧ ¬ (a = i ∧ b = j)) t → t ≤ s) ∧
          ∃ (gm : Graph α) (sm : K) (Gm : α → α → Prop), sm ≤ s ∧ Acyclic Gm ∧ IsCpdag Gm gm ∧ DagScore score names Gm sm ∧
            ∀ D, InClass Gm D → ∀ i ∈ names, ∀ j ∈ names, ¬ Adj D i j → Acyclic (fun a b => D a b ∨ (a = i ∧ b = j)) →
              (∀ l : List α, l.Nodup → (∀ p ∈ l, Dir gm p j) → (l.length : ℚ) ≤ maxP) →
              ∀ t, DagScore score names (fun a b => D a b ∨ (a = i ∧ b = j)) t → t ≤ sm) := by
  obtain ⟨g0, r0, n0, c0, hf⟩ := c54_fit hN hso hsc maxP
  refine ⟨g0, r0, n0, c0, fun hall => ?_⟩
  have start := right_start (score := score) r0 n0 c0
  have insR : ∀ t, Relation.ReflTransGen (InsertRound so maxP score) (g0, (names.map (fun v => score v [])).sum) t →
      ∃ G, Right score names t G := by
    intro t k
    induction k with
    | refl => exact ⟨_, start⟩
    | @tail b c hb hr ih =>
      obtain ⟨G, hR⟩ := ih
      exact right_insert hsc hse hso hR hr (fun i j T c' g1 d hB e1 hd hn he ec => hall d _
        ⟨b, i, j, T, c', g1, hd, hn, he, Or.inl ⟨hb, hB, e1⟩⟩ ec)
  have delR : ∀ m, Relation.ReflTransGen (InsertRound so maxP score) (g0, (names.map (fun v => score v [])).sum) m →
      InsertOptimal maxP score m.1 → ∀ t, Relation.ReflTransGen (DeleteRound so score) m t → ∃ G, Right score names t G := by
    intro m hm om t k
    induction k with
    | refl => exact insR m hm
    | @tail b c hb hr ih =>
      obtain ⟨G, hR⟩ := ih
      exact right_delete hsc hse hso hR hr (fun i j T c' g1 d hB e1 hd hn he ec => hall d _
        ⟨b, i, j, T, c', g1, hd, hn, he, Or.inr ⟨m, hm, om, hb, hB, e1⟩⟩ ec)
  rcases hf with ⟨g, s, gm, sm, N, k, l, e, rs, hn, _, ti, oi, td, od, _, _, _⟩ | ⟨_, t, hst⟩
  · have ti' := ti.trans
    have td' := td.trans
    obtain ⟨Gm, hRm⟩ := insR _ ti'
    obtain ⟨G, hR⟩ := delR _ ti' oi _ td'
    obtain ⟨_, _, _, _, _, hle⟩ := deleteRounds hso hRm.comp.du td'
    exact ⟨g, s, N, G, e, rs, hn, hR.comp.ac, hR.comp.cp, hR.score,
      fun D hD i j hij t ht => right_deleteOptimal hsc hse hR od hD hij ht,
      gm, sm, Gm, hle, hRm.comp.ac, hRm.comp.cp, hRm.score,
      fun D hD i hi j hj hna hac hmax t ht => right_insertOptimal hsc hse hRm oi hD hi hj hna hac hmax ht⟩
  · exfalso
    rcases hst with ⟨h1, i, j, T, c, g1, hB, e1, hstuck⟩ | ⟨m, h1, om, h2, i, j, T, c, g1, hB, e1, hstuck⟩
    · obtain ⟨G, hR⟩ := insR _ h1
      obtain ⟨g1', d, e1', ed, _⟩ := c55_insert (K := ℚ) hR.comp.du.rs hR.comp.du.du hR.comp.ac hR.comp.fin hR.comp.cp hB.valid
      rw [e1] at e1'
      obtain rfl := Except.ok.inj e1'
      rw [hstuck] at ed
      cases ed
    · obtain ⟨G, hR⟩ := delR _ h1 om _ h2
      obtain ⟨g1', d, e1', ed, _⟩ := c55_delete (K := ℚ) hR.comp.du.rs hR.comp.du.du hR.comp.ac hR.comp.fin hR.comp.cp hB.valid
      rw [e1] at e1'
      obtain rfl := Except.ok.inj e1'
      rw [hstuck] at ed
      cases ed

omit [DecidableEq α] in
/-- Among three variables no two triangles share an edge. -/
theorem noTwoTriangles_of_three {names : List α} (h3 : names.length ≤ 3) {D : α → α → Prop} (ac : Acyclic D)
    (fin : ∀ a b, D a b → a ∈ names ∧ b ∈ names) (a b c d : α) : ¬ TwoTriangles D a b c d := by
  rintro ⟨hcd, hab, hac, hbc, had, hbd⟩
  have ne : ∀ {x y}, Adj D x y → x ≠ y := by
    rintro x y k rfl
    exact ac x (.single (k.elim id id))
  have mem : ∀ {x y}, Adj D x y → x ∈ names ∧ y ∈ names := fun k => k.elim (fun q => fin _ _ q) (fun q => (fin _ _ q).symm)
  have hn : [a, b, c, d].Nodup := by simp [ne hab, ne hac, ne hbc, ne had, ne hbd, hcd]
  have := (List.subperm_of_subset hn (l₂ := names) (by
    intro x hx
    simp only [List.mem_cons, List.not_mem_nil, or_false] at hx
    rcases hx with rfl | rfl | rfl | rfl
    · exact (mem hab).1
    · exact (mem hab).2
    · exact (mem hac).2
    · exact (mem had).2)).length_le
  simp at this
  omega

/-- **C56, up to three variables**: no proviso. -/
theorem c56_three_partial {names : List α} (hN : names.Nodup) (h3 : names.length ≤ 3) {so : List α → List α}
    (hso : ∀ l, (so l).Perm l) {score : α → List α → K} (hsc : SetScore score) (hse : ScoreEquiv score names) (maxP : ℚ) :
    ∃ (g : Graph α) (s : K) (N : Nat) (G : α → α → Prop), (∀ n, N ≤ n → fit n so maxP score names = .ok (g, s)) ∧
      g.nodes = names ∧ Acyclic G ∧ IsCpdag G g ∧ DagScore score names G s ∧
      ∀ D, InClass G D → ∀ i j, D i j → ∀ t, DagScore score names (fun a b => D a b ∧ ¬ (a = i ∧ b = j)) t → t ≤ s := by
  obtain ⟨g0, r0, n0, c0, hf⟩ := c56_fit_partial hN hso hsc hse maxP
  obtain ⟨g, s, N, G, e, _, hn, h1, h2, h3, h4, _⟩ := hf (by
    intro d c hv e D hD u v k
    obtain ⟨st, i, j, T, ch, g1, hd, hdn, he, hrun⟩ := hv
    have hst : st.1.nodeList = names := by
      have hdu : DU g0 := ⟨r0, fun u v k => absurd k (c0 u v)⟩
      rcases hrun with ⟨h1, _⟩ | ⟨m, h1, _, h2, _⟩
      · obtain ⟨_, _, _, q, _⟩ := insertRounds hso hdu h1
        exact q.trans n0
      · obtain ⟨_, _, k2, q, _⟩ := insertRounds hso hdu h1
        obtain ⟨_, _, _, q', _⟩ := deleteRounds hso k2 h2
        exact q'.trans (q.trans n0)
    have hw := hd.toReachable.dg.wf
    have fin : ∀ a b, Dir d a b → a ∈ names ∧ b ∈ names := fun a b k => (show d.nodeList = names from hdn.trans hst) ▸ Dir.mem hw k
    exact c24_sound_partial hso hd.toReachable he.acyclic (noTwoTriangles_of_three h3 he.acyclic fin) e D hD.acyclic hD.adj
      hD.vstruct u v k)
  exact ⟨g, s, N, G, e, hn, h1, h2, h3, h4⟩

end

section examples

/-- The triangle 0, 1, 2 and the node 3 apart. -/
def exTri3 : Graph Nat := built .digraph [0, 1, 2, 3] [dE 0 1, dE 0 2, dE 1 2]
theorem exTri3_reachable : Reachable .digraph exTri3 := (built_reachable _ _ _ (by decide) (by decide)).reachable
theorem exTri3_acyclic : Acyclic (Dir exTri3) := acyclic_of_check exTri3_reachable (by decide +kernel)

/-- Its completed PDAG: the triangle is undirected. -/
def exTri3P : Graph Nat := (dag2cpdag id exTri3).toOption.getD exTri3
theorem exTri3P_spec : ReachableSimple .pdag exTri3P ∧ exTri3P.nodes = exTri3.nodes ∧
    (∀ u v, Conn exTri3P u v → Dir exTri3P u v ∨ Dir exTri3P v u ∨ Und exTri3P u v) ∧ IsCpdag (Dir exTri3) exTri3P := by
  obtain ⟨c, e, h1, h2, _, h4, _⟩ := c23_dag2cpdag (so := id) (fun l => List.Perm.refl l) exTri3_reachable exTri3_acyclic
  obtain ⟨c', e', h5, h6⟩ := c24_class_partial (so := id) (fun l => List.Perm.refl l) exTri3_reachable exTri3_acyclic
    (noTwoTriangles_of_check exTri3_reachable (by decide +kernel))
  have : exTri3P = c := by unfold exTri3P; rw [e]; rfl
  rw [e] at e'
  obtain rfl := Except.ok.inj e'
  rw [this]
  exact ⟨h1, h2, fun u v k => by have := h4 u v k; tauto, h5, h6⟩

theorem exTri3_fin : ∀ a b, Dir exTri3 a b → a ∈ exTri3P.nodes ∧ b ∈ exTri3P.nodes := fun _ _ k =>
  exTri3P_spec.2.1 ▸ Dir.mem exTri3_reachable.dg.wf k

/-- Scores that make GES choose an insertion, a deletion. -/
def exGain : List (List Nat × ℚ) := [([0, 1, 3], 1)]
def exLoss : List (List Nat × ℚ) := [([0, 1], -3), ([0, 1, 2], 2)]

theorem exTri3_insert : ValidInsert exTri3P 10 3 0 [1] := by
  obtain ⟨h1, _, h3, _⟩ := exTri3P_spec
  obtain ⟨N, b, hb, hop, _⟩ := c53_forward (famScore_set exGain) .empty h1 h3 10
  have : (forwardPass 60 10 (famScore exGain) exTri3P (fun _ => [])).toOption.map (fun b => b.op) = some (some (3, 0, [1])) := by
    decide +kernel
  cases e : forwardPass 60 10 (famScore exGain) exTri3P (fun _ => []) with
  | error x => rw [e] at this; cases this
  | ok b' =>
    rw [e] at this
    have h60 := forwardPass_le (le_max_left 60 N) 10 (famScore exGain) exTri3P (fun _ => []) _ e
    rw [hb _ (le_max_right 60 N)] at h60
    obtain rfl := Except.ok.inj h60
    exact (hop 3 0 [1] (Option.some.inj this)).1

theorem exTri3_delete : ValidDelete exTri3P 0 1 [2] := by
  obtain ⟨h1, _, h3, _⟩ := exTri3P_spec
  obtain ⟨b, hb, hop, _⟩ := c53_backward (famScore_set exLoss) .empty h1 h3 (so := id) (fun l => List.Perm.refl l)
  have : (backwardPass id (famScore exLoss) exTri3P (fun _ => [])).toOption.map (fun b => b.op) = some (some (0, 1, [2])) := by
    decide +kernel
  rw [hb] at this
  exact (hop 0 1 [2] (Option.some.inj this)).1

example := c55_insert (K := ℚ) exTri3P_spec.1 exTri3P_spec.2.2.1 exTri3_acyclic exTri3_fin exTri3P_spec.2.2.2 exTri3_insert
example := c55_delete (K := ℚ) exTri3P_spec.1 exTri3P_spec.2.2.1 exTri3_acyclic exTri3_fin exTri3P_spec.2.2.2 exTri3_delete
example : ScoreEquiv (famScore exGain) exTri3P.nodes := famScore_equiv (by decide +kernel) (by decide +kernel)
example : ScoreEquiv (famScore exLoss) exTri3P.nodes := famScore_equiv (by decide +kernel) (by decide +kernel)

/-- 3 -> 0 can be added. -/
def exTri3Plus : Graph Nat := built .digraph [0, 1, 2, 3] [dE 0 1, dE 0 2, dE 1 2, dE 3 0]
theorem exTri3Plus_reachable : Reachable .digraph exTri3Plus := (built_reachable _ _ _ (by decide) (by decide)).reachable
theorem exTri3_plus : Acyclic (fun a b => Dir exTri3 a b ∨ (a = 3 ∧ b = 0)) := by
  have ac : Acyclic (Dir exTri3Plus) := acyclic_of_check exTri3Plus_reachable (by decide +kernel)
  refine fun x k => ac x (Relation.TransGen.mono ?_ _ _ k)
  rintro a b (q | ⟨rfl, rfl⟩)
  · have hm := Dir.mem exTri3_reachable.dg.wf q
    have : ∀ a ∈ exTri3.nodes, ∀ b ∈ exTri3.nodes, exTri3.getEdge a b = .ok (some (dE a b)) →
        exTri3Plus.getEdge a b = .ok (some (dE a b)) := by decide +kernel
    exact this a hm.1 b hm.2 q
  · exact (by decide +kernel : exTri3Plus.getEdge 3 0 = .ok (some (dE 3 0)))

example := c55_insert_complete exTri3P_spec.1 exTri3P_spec.2.2.1 exTri3_acyclic exTri3_fin exTri3P_spec.2.2.2
  (Complete.InClass.self exTri3_acyclic) (i := 3) (j := 0) (by decide +kernel) (by decide +kernel)
  (by
    rintro (k | k)
    · exact absurd k (by decide +kernel : exTri3.getEdge 3 0 ≠ .ok (some (dE 3 0)))
    · exact absurd k (by decide +kernel : exTri3.getEdge 0 3 ≠ .ok (some (dE 0 3))))
  exTri3_plus (maxP := 4)
  (by
    intro l hl hp
    have := (List.subperm_of_subset hl (l₂ := exTri3P.nodes) (fun x hx => (Dir.mem exTri3P_spec.1.reachable.pg.wf (hp x hx)).1)).length_le
    have h4 : exTri3P.nodes.length = 4 := by decide +kernel
    rw [h4] at this
    exact_mod_cast this)
example := c55_delete_complete exTri3P_spec.1 exTri3P_spec.2.2.1 exTri3_acyclic exTri3_fin exTri3P_spec.2.2.2
  (Complete.InClass.self exTri3_acyclic) (i := 0) (j := 1)
  (by decide +kernel : exTri3.getEdge 0 1 = .ok (some (dE 0 1)))

/-- A run on three variables: two insertions give the collider. -/
def exFam : List (List Nat × ℚ) := [([0, 2], 4), ([1, 2], 2), ([0, 1], -1), ([0, 1, 2], 2)]
example := c56_three_partial (names := [0, 1, 2]) (by decide) (by decide) (so := id) (fun _ => List.Perm.refl _)
  (famScore_set exFam) (famScore_equiv (by decide) (by decide)) 10
example : (fit 60 id 10 (famScore exFam) [0, 1, 2]).toOption.map (fun r => (r.1.edges.toOption, r.2)) =
    some (some [dE 0 2, dE 1 2], 8) := by decide +kernel
example := c56_fit_partial (names := [0, 1, 2]) (by decide) (so := id) (fun _ => List.Perm.refl _) (famScore_set exFam)
  (famScore_equiv (by decide) (by decide)) 10

end examples
end Cdmir
