import Verif.Props.DiGraph
import Verif.Lemmas.Rule0

/-! Properties C17-C22: the orientation rules of PDAG. -/

namespace Cdmir
open Graph Spec

section
variable {α : Type} [DecidableEq α] {g g' : Graph α}

theorem Reachable.pg (h : Reachable .pdag g) : g.PG := ⟨h.good.1, h.good.2⟩

theorem isConnected_congr (hw : g.WF) (hw' : g'.WF) (hn : g'.nodeList = g.nodeList) (hc : ∀ x y, Conn g' x y ↔ Conn g x y)
    (x y : α) : g'.isConnected x y = g.isConnected x y := by
  classical
  by_cases hm : x ∈ g.nodeList ∧ y ∈ g.nodeList
  · rw [ic_dec hw hm.1 hm.2, ic_dec hw' (by rw [hn]; exact hm.1) (by rw [hn]; exact hm.2)]
    simp only [hc x y]
  · rw [isConnected_err hw hm, isConnected_err hw' (by rw [hn]; exact hm)]

theorem Graph.Oriented.onlyOrients (hg : g.PG) (h : Oriented g g') : OnlyOrients g g' :=
  ⟨h.nodes, (h.via.good hg.good).2, isConnected_congr hg.wf (h.via.PG hg).wf h.nodes h.conn,
    fun u v hu => h.keep u v (Or.inl hu), fun u v hne hu => h.und u v hu hne⟩

/-- **C17.** `rule0`: total, keeps nodes and adjacencies, changes an edge only for a reason, and orients every
unshielded triple that asks for it and is not contradicted. -/
theorem c17_rule0 (h : Reachable .pdag g) (sep : Dict (α × α) (List α))
    (hs : ∀ u ∈ g.nodes, ∀ v ∈ g.nodes, u ≠ v → g.isConnected u v = .ok false → ∃ s, dget sep (u, v) = some s) :
    ∃ g', g.rule0 sep = .ok g' ∧ Reachable .pdag g' ∧ g'.nodes = g.nodes ∧
      (∀ u v, g'.isConnected u v = g.isConnected u v) ∧
      (∀ a b, g'.getEdge a b ≠ g.getEdge a b →
        (Dir g' a b ∧ ∃ v, Claims g sep a b v) ∨ (Dir g' b a ∧ ∃ v, Claims g sep b a v)) ∧
      (∀ u w v, Claims g sep u w v → (∀ x, ¬ Claims g sep w u x) → (∀ x, ¬ Claims g sep w v x) →
        Dir g' u w ∧ Dir g' v w) := by
  have hp := h.pg
  have hs' : ∀ p ∈ pairs g.nodeList, ¬ Conn g p.1 p.2 → (dget sep p).isSome := by
    rintro ⟨u, v⟩ huv hc
    obtain ⟨hu, hv, _⟩ := (mem_pairs_iff hp.wf.nodup u v).1 huv
    obtain ⟨s, hs⟩ := hs u hu v hv (mem_pairs_ne hp.wf.nodup huv) (by
      classical
      rw [ic_dec hp.wf hu hv]; simpa using hc)
    rw [hs]; rfl
  obtain ⟨g', e, r, hcl⟩ := rule0_spec hp hs'
  refine ⟨g', e, r.via.reachable h, r.nodes, isConnected_congr hp.wf r.pg.wf r.nodes r.conn, ?_, ?_⟩
  · intro a b hne
    by_cases hab : a = b
    · subst hab; exact absurd (r.self a) hne
    · rcases r.edge a b hab with h | h | h
      · exact absurd h hne
      · exact Or.inl h
      · exact Or.inr h
  · intro u w v hc n1 n2
    exact hcl u w v hc (fun ⟨x, hx⟩ => n1 x hx) (fun ⟨x, hx⟩ => n2 x hx)

theorem flag_result {P : Graph α → Prop} {J : Graph α → α → α → Prop} {Q : Prop} {b : Bool}
    {m : Except Err (Graph α × Bool)} (hg : g.PG) (h : Flagged P (Steps J) Q g b m) :
    ∃ g' c, m = .ok (g', c) ∧ Oriented g g' ∧ (c = b ∧ g' = g ∧ Q ∨ c = true ∧ Steps J g g') := by
  obtain ⟨g', c, e, _, d⟩ := h
  refine ⟨g', c, e, ?_, d⟩
  rcases d with ⟨_, rfl, _⟩ | ⟨_, s⟩
  · exact Oriented.refl _
  · exact Steps.oriented hg s

/-- **C18.** Each rule, and `orient_by_meek_rules`, returns without exception a graph that differs only by directing
undirected edges. -/
theorem c18_meek_only_orients (h : Reachable .pdag g) :
    (∃ g' c, g.rule1 = .ok (g', c) ∧ Reachable .pdag g' ∧ OnlyOrients g g') ∧
    (∃ g' c, g.rule2 = .ok (g', c) ∧ Reachable .pdag g' ∧ OnlyOrients g g') ∧
    (∃ g' c, g.rule3 = .ok (g', c) ∧ Reachable .pdag g' ∧ OnlyOrients g g') ∧
    (∃ g' c, g.rule4 = .ok (g', c) ∧ Reachable .pdag g' ∧ OnlyOrients g g') ∧
    (∃ g', g.orientByMeekRules = .ok g' ∧ Reachable .pdag g' ∧ OnlyOrients g g') := by
  have hp := h.pg
  have hng : NG g.nodeList g := ⟨hp, rfl⟩
  obtain ⟨g1, c1, e1, o1, _⟩ := flag_result hp (rule1_spec hng)
  obtain ⟨g2, c2, e2, o2, _⟩ := flag_result hp (rule2_spec hng)
  obtain ⟨g3, c3, e3, o3, _⟩ := flag_result hp (rule3_spec hng)
  obtain ⟨g4, c4, e4, o4, _⟩ := flag_result hp (rule4_spec hng)
  obtain ⟨g5, e5, _, s5, _⟩ := orientByMeekRules_spec hng
  have o5 := ReflSteps.oriented hp s5
  exact ⟨⟨g1, c1, e1, o1.via.reachable h, o1.onlyOrients hp⟩, ⟨g2, c2, e2, o2.via.reachable h, o2.onlyOrients hp⟩,
    ⟨g3, c3, e3, o3.via.reachable h, o3.onlyOrients hp⟩, ⟨g4, c4, e4, o4.via.reachable h, o4.onlyOrients hp⟩,
    ⟨g5, e5, o5.via.reachable h, o5.onlyOrients hp⟩⟩

theorem undCount_eq (hg : g.PG) {es : List (Edge α)} (he : g.edges = .ok es) :
    g.undCount = (es.filter (fun e => e.mu = .tail ∧ e.mv = .tail)).length := by
  classical
  rw [edges_ok hg.wf] at he
  cases he
  unfold undCount edgeList
  generalize pairs g.nodeList = l
  induction l with
  | nil => rfl
  | cons p t ih =>
    rw [List.filter_cons, List.filterMap_cons]
    have hu := und_iff hg.wf p.1 p.2
    by_cases hd : Und g p.1 p.2
    · have h2 := hu.1 hd
      simp only [hd, decide_true, if_true, List.length_cons, ih]
      simp [edge?, h2.1, h2.2]
    · simp only [hd, decide_false]
      rw [if_neg (by simp), ih]
      rw [hu] at hd
      unfold edge?
      cases h1 : g.mark p.2 p.1 with
      | none => simp
      | some a =>
        cases h2 : g.mark p.1 p.2 with
        | none => simp
        | some b =>
          simp only
          rw [h1, h2] at hd
          simp only [Option.some.injEq] at hd
          rw [List.filter_cons, if_neg (by simpa using hd)]

/-- **C19.** `orient_by_meek_rules` terminates within one pass more than there are undirected edges; more passes would
not change the result. -/
theorem c19_meek_terminates (h : Reachable .pdag g) {es : List (Edge α)} (he : g.edges = .ok es) :
    ∃ g', g.orientByMeekRules = .ok g' ∧
      ∀ fuel, (es.filter (fun e => e.mu = .tail ∧ e.mv = .tail)).length + 1 ≤ fuel → meekLoop fuel g = .ok g' := by
  obtain ⟨g', e, _, _, _, _, hm⟩ := orientByMeekRules_spec (N := g.nodeList) ⟨h.pg, rfl⟩
  refine ⟨g', e, fun fuel hf => hm fuel ?_⟩
  rw [undCount_eq h.pg he]
  omega

/-- **C20.** The result is closed under the four patterns and a second call changes nothing (not even the order of the
adjacency dictionaries). -/
theorem c20_meek_closed (h : Reachable .pdag g) (he : g.orientByMeekRules = .ok g') :
    (∀ a b, ¬ Pat1 g' a b ∧ ¬ Pat2 g' a b ∧ ¬ Pat3 g' a b ∧ ¬ Pat4 g' a b) ∧ g'.orientByMeekRules = .ok g' := by
  obtain ⟨g1, e, hng, _, hc, hpass, _⟩ := orientByMeekRules_spec (N := g.nodeList) ⟨h.pg, rfl⟩
  rw [he] at e
  cases e
  have hw := hng.1.wf
  constructor
  · intro a b
    by_cases hab : a = b
    · subst hab
      refine ⟨?_, ?_, ?_, ?_⟩
      · rintro ⟨u, _, hd, hn, _⟩; exact hn (Dir.conn hw hd)
      · rintro ⟨v, h1, h2, _⟩; exact Dir.asymm hw h1 h2
      · rintro ⟨v, x, _, _, _, h1, h2, _⟩; exact Dir.not_und hw h2 (h1.symm hw)
      · rintro ⟨u, v, _, _, _, _, hn, _, _, h1, _⟩; exact hn (h1.conn hw)
    · have := hc a b hab
      unfold PatAny at this
      tauto
  · have hn : meekLoop ((pairs g'.nodes).length + 1) g' = .ok g' := by
      unfold meekLoop
      rw [hpass]; rfl
    exact hn

/-! ### Soundness -/

theorem extends_step {D : α → α → Prop} (hg : g.PG) {a b : α} (hx : Extends D g) (hab : a ≠ b) (hu : Und g a b)
    (ho : OTo g g' a b) (hd : D a b) : Extends D g' := by
  have hk := fun x y (h : Dir g x y) => ho.dir_keep hg hab hu h
  refine ⟨hx.acyclic, fun u v => by rw [hx.adj, ho.conn hg (hu.conn hg.wf)], ?_, ?_⟩
  · intro u v huv
    by_cases h1 : u = a ∧ v = b
    · rw [h1.1, h1.2]; exact hd
    · by_cases h2 : u = b ∧ v = a
      · obtain ⟨rfl, rfl⟩ := h2
        exact absurd (ho.dir_self hg hab) (Dir.asymm (ho.PG hg).wf huv)
      · exact hx.dir u v ((ho.dir_other hg h1 h2).1 huv)
  · intro u w v huv h1 h2 h3
    exact ⟨hk _ _ (hx.collider u w v huv h1 h2 h3).1, hk _ _ (hx.collider u w v huv h1 h2 h3).2⟩

theorem extends_steps {D : α → α → Prop} {J : Graph α → α → α → Prop} {S : Graph α → Prop}
    (hS : ∀ g g', g.PG → Step J g g' → S g → S g')
    (hJ : ∀ g, g.PG → S g → Extends D g → ∀ a b, a ≠ b → Und g a b → J g a b → D a b)
    (hg : g.PG) (hs : S g) (hx : Extends D g) (h : Relation.ReflTransGen (Step J) g g') : Extends D g' := by
  have : Extends D g' ∧ S g' ∧ g'.PG := by
    induction h with
    | refl => exact ⟨hx, hs, hg⟩
    | tail _ hstep ih =>
      obtain ⟨ix, is, ig⟩ := ih
      obtain ⟨a, b, hab, hu, hj, ho⟩ := id hstep
      exact ⟨extends_step ig ix hab hu ho (hJ _ ig is ix a b hab hu hj), hS _ _ ig hstep is, ho.PG ig⟩
  exact this.1

theorem Extends.adj_of_und {D : α → α → Prop} (hg : g.PG) (hx : Extends D g) {a b : α} (hab : a ≠ b) (hu : Und g a b) :
    D a b ∨ D b a := (hx.adj a b).2 ⟨hab, hu.conn hg.wf⟩

/-- An orientation made by the first pattern is right in every extension. -/
theorem pat1_sound {D : α → α → Prop} (hg : g.PG) (hx : Extends D g) {a b : α} (hab : a ≠ b) (hp : Pat1 g a b) : D a b := by
  obtain ⟨u, hub, hd, hn, hu⟩ := hp
  rcases Extends.adj_of_und hg hx hab hu with h | h
  · exact h
  · have := (hx.collider u a b hub (hx.dir _ _ hd) h (fun h => hn ((hx.adj _ _).1 h).2)).2
    exact absurd (hu.symm hg.wf) (Dir.not_und hg.wf this)

/-- An orientation made by the second pattern is right in every extension. -/
theorem pat2_sound {D : α → α → Prop} (hg : g.PG) (hx : Extends D g) {a b : α} (hab : a ≠ b) (hp : Pat2 g a b) : D a b := by
  obtain ⟨v, h1, h2, hu⟩ := hp
  rcases Extends.adj_of_und hg hx hab hu with h | h
  · exact h
  · exact absurd (((Relation.TransGen.single (hx.dir _ _ h1)).tail (hx.dir _ _ h2)).tail h) (hx.acyclic a)

/-- The third pattern with its missing condition (`v`, `x` not adjacent). -/
theorem pat3_sound {D : α → α → Prop} (hg : g.PG) (hx : Extends D g) {a b v x : α} (hab : a ≠ b) (hva : v ≠ a) (hxa : x ≠ a)
    (hvx : v ≠ x) (h1 : Und g a v) (h2 : Dir g v b) (h3 : Und g a x) (h4 : Dir g x b) (hu : Und g a b) (hn : ¬ Conn g v x) :
    D a b := by
  rcases Extends.adj_of_und hg hx hab hu with h | h
  · exact h
  · have key : ∀ y, y ≠ a → Und g a y → Dir g y b → D y a := by
      intro y hya k1 k2
      rcases Extends.adj_of_und hg hx (Ne.symm hya) k1 with k | k
      · exact absurd (((Relation.TransGen.single k).tail (hx.dir _ _ k2)).tail h) (hx.acyclic a)
      · exact k
    have := (hx.collider v a x hvx (key v hva h1 h2) (key x hxa h3 h4) (fun h => hn ((hx.adj _ _).1 h).2)).1
    exact absurd (h1.symm hg.wf) (Dir.not_und hg.wf this)

/-- **C21.** `rule1` is sound. -/
theorem c21_rule1_sound (h : Reachable .pdag g) {c : Bool} (he : g.rule1 = .ok (g', c)) {D : α → α → Prop}
    (hx : Extends D g) : Extends D g' := by
  obtain ⟨g1, c1, e1, _, d⟩ := flag_result h.pg (rule1_spec (N := g.nodeList) ⟨h.pg, rfl⟩)
  rw [he] at e1
  cases e1
  rcases d with ⟨_, rfl, _⟩ | ⟨_, s⟩
  · exact hx
  · exact extends_steps (S := fun _ => True) (fun _ _ _ _ _ => trivial)
      (fun g hg _ hx a b hab _ hp => pat1_sound hg hx hab hp) h.pg trivial hx s.to_reflTransGen

/-- **C21.** `rule2` is sound. -/
theorem c21_rule2_sound (h : Reachable .pdag g) {c : Bool} (he : g.rule2 = .ok (g', c)) {D : α → α → Prop}
    (hx : Extends D g) : Extends D g' := by
  obtain ⟨g1, c1, e1, _, d⟩ := flag_result h.pg (rule2_spec (N := g.nodeList) ⟨h.pg, rfl⟩)
  rw [he] at e1
  cases e1
  rcases d with ⟨_, rfl, _⟩ | ⟨_, s⟩
  · exact hx
  · exact extends_steps (S := fun _ => True) (fun _ _ _ _ _ => trivial)
      (fun g hg _ hx a b hab _ hp => pat2_sound hg hx hab hp) h.pg trivial hx s.to_reflTransGen

/-- **C22, what holds of `rule3`.** The full claim is soundness on all PDAGs; it is false (`c22_rule3_false`). It holds
when no four nodes are mutually adjacent. -/
theorem c22_rule3_sound_partial (h : Reachable .pdag g) (hk : ∀ a b c d, ¬ Clique4 g a b c d) {c : Bool}
    (he : g.rule3 = .ok (g', c)) {D : α → α → Prop} (hx : Extends D g) : Extends D g' := by
  obtain ⟨g1, c1, e1, _, d⟩ := flag_result h.pg (rule3_spec (N := g.nodeList) ⟨h.pg, rfl⟩)
  rw [he] at e1
  cases e1
  rcases d with ⟨_, rfl, _⟩ | ⟨_, s⟩
  · exact hx
  · refine extends_steps (S := fun g => ∀ a b c d, ¬ Clique4 g a b c d) ?_ ?_ h.pg hk hx s.to_reflTransGen
    · intro g g' hg hs hk a b c d hc
      have ho := hs.oriented hg
      obtain ⟨h0, h1, h2, h3, h4, h5, h6⟩ := hc
      simp only [ho.conn] at h1 h2 h3 h4 h5 h6
      exact hk a b c d ⟨h0, h1, h2, h3, h4, h5, h6⟩
    · intro g hg hk hx a b hab _ hp
      obtain ⟨v, x, k1, k2, k3, k4, k5, k6, k7, hu⟩ := hp
      refine pat3_sound hg hx hab k1 k2 k3 k4 k5 k6 k7 hu (fun hc => ?_)
      refine hk a b v x ⟨?_, hu.conn hg.wf, k4.conn hg.wf, k6.conn hg.wf, (Dir.conn hg.wf k5).symm hg.wf,
        (Dir.conn hg.wf k7).symm hg.wf, hc⟩
      have n1 := Dir.ne hg.wf k5
      have n2 := Dir.ne hg.wf k7
      simp [hab, Ne.symm k1, Ne.symm k2, k3, Ne.symm n1, Ne.symm n2]

/-- The fourth pattern with its missing condition (`u -> v`). -/
theorem pat4_sound {D : α → α → Prop} (hg : g.PG) (hx : Extends D g) {a b u v : α} (hab : a ≠ b) (hub : u ≠ b) (hua : u ≠ a)
    (hn : ¬ Conn g u b) (h2 : Dir g v b) (h3 : Und g u a) (hu : Und g a b) (huv : D u v) : D a b := by
  rcases Extends.adj_of_und hg hx hab hu with h | h
  · exact h
  · rcases Extends.adj_of_und hg hx hua h3 with k | k
    · have := (hx.collider u a b hub k h (fun h => hn ((hx.adj _ _).1 h).2)).1
      exact absurd h3 (Dir.not_und hg.wf this)
    · exact absurd ((((Relation.TransGen.single huv).tail (hx.dir _ _ h2)).tail h).tail k) (hx.acyclic u)

/-- **C22, what holds of `rule4`.** The full claim is soundness on all PDAGs; it is false (`c22_rule4_false`). It holds for
the extensions that direct `u -> v` wherever `u --- v`, `u --- a --- b`, `v` is adjacent to `a` and directed to `b`, and `u`
and `b` are not adjacent (Meek's fourth rule has `u -> v` as a condition). -/
theorem c22_rule4_sound_partial (h : Reachable .pdag g) {c : Bool} (he : g.rule4 = .ok (g', c)) {D : α → α → Prop}
    (hx : Extends D g) (hD : ∀ u v a b, u ≠ b → ¬ Conn g u b → Und g u v → D v b → Und g u a → Und g a b → Conn g v a → D u v) :
    Extends D g' := by
  obtain ⟨g1, c1, e1, _, d⟩ := flag_result h.pg (rule4_spec (N := g.nodeList) ⟨h.pg, rfl⟩)
  rw [he] at e1
  cases e1
  rcases d with ⟨_, rfl, _⟩ | ⟨_, s⟩
  · exact hx
  · refine extends_steps (S := fun g1 => (∀ a b, Und g1 a b → Und g a b) ∧ ∀ a b, Conn g1 a b ↔ Conn g a b) ?_ ?_ h.pg
      ⟨fun _ _ h => h, fun _ _ => Iff.rfl⟩ hx s.to_reflTransGen
    · intro g1 g2 hg hs hk
      have ho := hs.oriented hg
      refine ⟨fun a b hu => hk.1 a b ?_, fun a b => by rw [ho.conn]; exact hk.2 a b⟩
      by_contra hn
      refine hn ?_
      have := ho.keep a b (Or.inl hn)
      unfold Und at *
      rw [← this]; exact hu
    · intro g1 hg hk hx1 a b hab _ hp
      obtain ⟨u, v, k1, k2, k3, k4, k5, k6, k7, k8, k9, hu⟩ := hp
      refine pat4_sound hg hx1 hab k1 k3 k5 k7 k8 hu ?_
      exact hD u v a b k1 (fun q => k5 ((hk.2 _ _).2 q)) (hk.1 _ _ k6) (hx1.dir _ _ k7) (hk.1 _ _ k8) (hk.1 _ _ hu)
        ((hk.2 _ _).1 k9)

/-- Checking an extension on the nodes only. -/
theorem extends_of_check {d : Graph α} (hd : Reachable .digraph d) (hg : Reachable .pdag g) (hn : d.nodes = g.nodes)
    (ha : d.isAcyclic = .ok true)
    (h1 : ∀ u ∈ g.nodes, ∀ v ∈ g.nodes, u ≠ v → d.isConnected u v = g.isConnected u v)
    (h2 : ∀ u ∈ g.nodes, ∀ v ∈ g.nodes, g.isFullyDirected u v = .ok true → d.isFullyDirected u v = .ok true)
    (h3 : ∀ u ∈ g.nodes, ∀ v ∈ g.nodes, ∀ w ∈ g.nodes, u ≠ v → d.isFullyDirected u w = .ok true →
      d.isFullyDirected v w = .ok true → d.isConnected u v = .ok false → g.isFullyDirected u w = .ok true) :
    Extends (Dir d) g := by
  classical
  have hdw := hd.dg.wf
  have hgw := hg.pg.wf
  have hn' : d.nodeList = g.nodeList := hn
  have fdd : ∀ u ∈ g.nodeList, ∀ v ∈ g.nodeList, (d.isFullyDirected u v = .ok true ↔ Dir d u v) := by
    intro u hu v hv
    rw [fd_dec hdw (by rw [hn']; exact hu) (by rw [hn']; exact hv)]; simp
  have fdg : ∀ u ∈ g.nodeList, ∀ v ∈ g.nodeList, (g.isFullyDirected u v = .ok true ↔ Dir g u v) := by
    intro u hu v hv
    rw [fd_dec hgw hu hv]; simp
  have hmem : ∀ u v, Dir d u v → u ∈ g.nodeList ∧ v ∈ g.nodeList := by
    intro u v h; rw [← hn']; exact Dir.mem hdw h
  have hadj : ∀ u v, Adj (Dir d) u v ↔ u ≠ v ∧ Conn d u v := by
    intro u v
    constructor
    · rintro (h | h)
      · exact ⟨Dir.ne hdw h, Dir.conn hdw h⟩
      · exact ⟨(Dir.ne hdw h).symm, (Dir.conn hdw h).symm hdw⟩
    · rintro ⟨hne, hc⟩
      have hk := hd.dg.good.kindOK
      unfold KindOK at hk
      rw [hd.dg.kind] at hk
      rw [conn_iff hdw] at hc
      rcases hk.1 u v hne hc with ⟨a, b⟩ | ⟨a, b⟩
      · left; rw [dir_iff hdw]; exact ⟨b, a⟩
      · right; rw [dir_iff hdw]; exact ⟨a, b⟩
  refine ⟨?_, ?_, ?_, ?_⟩
  · obtain ⟨b, hb, hi⟩ := c15_is_acyclic hd
    rw [ha] at hb
    exact hi.1 (Except.ok.inj hb).symm
  · intro u v
    rw [hadj]
    constructor
    · rintro ⟨hne, hc⟩
      have hm := Conn.mem hdw hc
      rw [hn'] at hm
      exact ⟨hne, by unfold Conn; rw [← h1 u hm.1 v hm.2 hne]; exact hc⟩
    · rintro ⟨hne, hc⟩
      have hm := Conn.mem hgw hc
      exact ⟨hne, by unfold Conn; rw [h1 u hm.1 v hm.2 hne]; exact hc⟩
  · intro u v h
    have hm := Dir.mem hgw h
    exact (fdd u hm.1 v hm.2).1 (h2 u hm.1 v hm.2 ((fdg u hm.1 v hm.2).2 h))
  · have key : ∀ u w v, u ≠ v → Dir d u w → Dir d v w → ¬ Adj (Dir d) u v → Dir g u w := by
      intro u w v huv k1 k2 k3
      have m1 := hmem _ _ k1
      have m2 := hmem _ _ k2
      refine (fdg u m1.1 w m1.2).1 (h3 u m1.1 v m2.1 w m1.2 huv ((fdd _ m1.1 _ m1.2).2 k1) ((fdd _ m2.1 _ m2.2).2 k2) ?_)
      rw [ic_dec hdw (by rw [hn']; exact m1.1) (by rw [hn']; exact m2.1)]
      rw [hadj] at k3
      simp [huv] at k3
      simp [k3]
    intro u w v huv k1 k2 k3
    exact ⟨key u w v huv k1 k2 k3, key v w u (Ne.symm huv) k2 k1 (fun h => k3 h.symm)⟩

end

/-! ### Concrete cases and negations -/

section examples

/-- A graph built by one call of `add_edges` on a new object. -/
def built (k : Kind) (nodes : List Nat) (es : List (Edge Nat)) : Graph Nat :=
  match Graph.init k nodes with
  | .ok g => g.run [.addEdges es false]
  | .error _ => ⟨k, [], [], []⟩

theorem built_reachable (k : Kind) (nodes : List Nat) (es : List (Edge Nat)) (hn : nodes.Nodup)
    (hs : ∀ e ∈ es, e.u ≠ e.v) : ReachableSimple k (built k nodes es) := by
  obtain ⟨g0, h0⟩ := (init_ok_iff k nodes).2 hn
  refine ⟨nodes, g0, [.addEdges es false], h0, ?_, by unfold built; rw [h0]⟩
  intro o ho e he
  simp only [List.mem_singleton] at ho
  subst ho
  exact hs e he

/-- `u -> v`. -/
abbrev dE (u v : Nat) : Edge Nat := ⟨u, v, .tail, .arrow⟩
/-- `u --- v`. -/
abbrev uE (u v : Nat) : Edge Nat := ⟨u, v, .tail, .tail⟩

/-- 1 --- 3 --- 2 and 3 --- 4. -/
def exSkel : Graph Nat := built .pdag [1, 2, 3, 4] [uE 1 3, uE 2 3, uE 3 4]

theorem exSkel_reachable : Reachable .pdag exSkel := (built_reachable _ _ _ (by decide) (by decide)).reachable

/-- Separating sets for `exSkel`: 3 is in none but that of (1, 4) and (2, 4). -/
def exSep : Dict (Nat × Nat) (List Nat) :=
  [((1, 2), []), ((2, 1), []), ((1, 4), [3]), ((4, 1), [3]), ((2, 4), [3]), ((4, 2), [3])]

/-- What `rule0` makes of `exSkel`: 1 -> 3 <- 2, 3 --- 4. -/
def exColl : Graph Nat := built .pdag [1, 2, 3, 4] [dE 1 3, dE 2 3, uE 3 4]

theorem exColl_reachable : Reachable .pdag exColl := (built_reachable _ _ _ (by decide) (by decide)).reachable

example : (exSkel.rule0 exSep).map Graph.edges = .ok exColl.edges := by decide +kernel
example : Claims exSkel exSep 1 3 2 :=
  ⟨by decide, by decide, by unfold Conn; decide +kernel, by unfold Conn; decide +kernel, by unfold Conn; decide +kernel,
    Or.inl ⟨by decide +kernel, [], by decide, by decide⟩⟩
example := c17_rule0 exSkel_reachable exSep (fun u hu v hv huv hc => Option.isSome_iff_exists.1
  ((by decide +kernel : ∀ u ∈ exSkel.nodes, ∀ v ∈ exSkel.nodes, u ≠ v → exSkel.isConnected u v = .ok false →
    (dget exSep (u, v)).isSome) u hu v hv huv hc))
example : exColl.rule1.map (fun r => (r.1.isFullyDirected 3 4, r.2)) = .ok (.ok true, true) := by decide +kernel
example : exColl.orientByMeekRules.map (fun g => g.isFullyDirected 3 4) = .ok (.ok true) := by decide +kernel

/-- 1 -> 2 -> 3 with 1 --- 3, for `rule2`. -/
def exTri : Graph Nat := built .pdag [1, 2, 3] [dE 1 2, dE 2 3, uE 1 3]

example : exTri.rule2.map (fun r => (r.1.isFullyDirected 1 3, r.2)) = .ok (.ok true, true) := by decide +kernel

/-- A DAG extending `exColl`. -/
def exCollDag : Graph Nat := built .digraph [1, 2, 3, 4] [dE 1 3, dE 2 3, dE 3 4]

theorem exColl_extends : Extends (Dir exCollDag) exColl :=
  extends_of_check (built_reachable _ _ _ (by decide) (by decide)).reachable exColl_reachable (by decide +kernel)
    (by decide +kernel) (by decide +kernel) (by decide +kernel) (by decide +kernel)

example : ∀ g' c, exColl.rule1 = .ok (g', c) → Extends (Dir exCollDag) g' :=
  fun _ _ he => c21_rule1_sound exColl_reachable he exColl_extends

/-- 0 --- 1, 0 --- 2, 0 --- 3, 1 --- 2, 1 -> 3, 2 -> 3. -/
def exR3 : Graph Nat := built .pdag [0, 1, 2, 3] [uE 0 1, uE 0 2, uE 0 3, uE 1 2, dE 1 3, dE 2 3]
/-- An extension of `exR3` with 3 -> 0. -/
def exR3Dag : Graph Nat := built .digraph [0, 1, 2, 3] [dE 1 0, dE 2 0, dE 3 0, dE 1 2, dE 1 3, dE 2 3]

theorem exR3_reachable : Reachable .pdag exR3 := (built_reachable _ _ _ (by decide) (by decide)).reachable

/-- **C22 is false of `rule3`.** -/
theorem c22_rule3_false : ∃ (g g' : Graph Nat) (c : Bool) (D : Nat → Nat → Prop),
    Reachable .pdag g ∧ g.rule3 = .ok (g', c) ∧ Extends D g ∧ ¬ Extends D g' := by
  obtain ⟨_, _, ⟨g', c, e, _, _⟩, _⟩ := c18_meek_only_orients exR3_reachable
  have hx : Extends (Dir exR3Dag) exR3 :=
    extends_of_check (built_reachable _ _ _ (by decide) (by decide)).reachable exR3_reachable (by decide +kernel)
      (by decide +kernel) (by decide +kernel) (by decide +kernel) (by decide +kernel)
  refine ⟨exR3, g', c, Dir exR3Dag, exR3_reachable, e, hx, fun hx' => ?_⟩
  have h1 : exR3.rule3.map (fun r => r.1.getEdge 0 3) = .ok (.ok (some (dE 0 3))) := by decide +kernel
  rw [e] at h1
  have h2 : Dir exR3Dag 0 3 := hx'.dir 0 3 (Except.ok.inj h1)
  have h3 : exR3Dag.getEdge 0 3 ≠ .ok (some (dE 0 3)) := by decide +kernel
  exact h3 h2

/-- 1 -> 3, 0 --- 1, 0 --- 2, 2 --- 3, 1 --- 2. -/
def exR4 : Graph Nat := built .pdag [0, 1, 2, 3] [uE 0 1, uE 0 2, uE 2 3, uE 1 2, dE 1 3]
/-- An extension of `exR4` with 3 -> 2. -/
def exR4Dag : Graph Nat := built .digraph [0, 1, 2, 3] [dE 1 0, dE 2 0, dE 3 2, dE 1 2, dE 1 3]

theorem exR4_reachable : Reachable .pdag exR4 := (built_reachable _ _ _ (by decide) (by decide)).reachable

/-- **C22 is false of `rule4`.** -/
theorem c22_rule4_false : ∃ (g g' : Graph Nat) (c : Bool) (D : Nat → Nat → Prop),
    Reachable .pdag g ∧ g.rule4 = .ok (g', c) ∧ Extends D g ∧ ¬ Extends D g' := by
  obtain ⟨_, _, _, ⟨g', c, e, _, _⟩, _⟩ := c18_meek_only_orients exR4_reachable
  have hx : Extends (Dir exR4Dag) exR4 :=
    extends_of_check (built_reachable _ _ _ (by decide) (by decide)).reachable exR4_reachable (by decide +kernel)
      (by decide +kernel) (by decide +kernel) (by decide +kernel) (by decide +kernel)
  refine ⟨exR4, g', c, Dir exR4Dag, exR4_reachable, e, hx, fun hx' => ?_⟩
  have h1 : exR4.rule4.map (fun r => r.1.getEdge 2 3) = .ok (.ok (some (dE 2 3))) := by decide +kernel
  rw [e] at h1
  have h2 : Dir exR4Dag 2 3 := hx'.dir 2 3 (Except.ok.inj h1)
  have h3 : exR4Dag.getEdge 2 3 ≠ .ok (some (dE 2 3)) := by decide +kernel
  exact h3 h2

/-- 0 --- 1, 0 --- 2, 0 --- 3, 1 -> 3 <- 2 without 1 --- 2: a correct use of `rule3`. -/
def exR3ok : Graph Nat := built .pdag [0, 1, 2, 3] [uE 0 1, uE 0 2, uE 0 3, dE 1 3, dE 2 3]

example : exR3ok.rule3.map (fun r => (r.1.isFullyDirected 0 3, r.2)) = .ok (.ok true, true) := by decide +kernel
example : ∀ a b c d, ¬ Clique4 exR3ok a b c d := by
  intro a b c d h
  have hr : Reachable .pdag exR3ok := (built_reachable _ _ _ (by decide) (by decide)).reachable
  obtain ⟨h0, h1, h2, h3, h4, h5, h6⟩ := h
  have ma := (Conn.mem hr.pg.wf h1).1
  have mb := (Conn.mem hr.pg.wf h1).2
  have mc := (Conn.mem hr.pg.wf h2).2
  have md := (Conn.mem hr.pg.wf h3).2
  have key : ∀ a ∈ exR3ok.nodeList, ∀ b ∈ exR3ok.nodeList, ∀ c ∈ exR3ok.nodeList, ∀ d ∈ exR3ok.nodeList,
      [a, b, c, d].Nodup → exR3ok.isConnected a b = .ok true → exR3ok.isConnected a c = .ok true →
      exR3ok.isConnected a d = .ok true → exR3ok.isConnected b c = .ok true → exR3ok.isConnected b d = .ok true →
      exR3ok.isConnected c d ≠ .ok true := by decide +kernel
  exact key a ma b mb c mc d md h0 h1 h2 h3 h4 h5 h6

/-- An extension of `exR4` in which 0 -> 1: the orientation 2 -> 3 made by `rule4` is right there. -/
def exR4Dag' : Graph Nat := built .digraph [0, 1, 2, 3] [dE 0 1, dE 0 2, dE 2 3, dE 1 2, dE 1 3]

theorem exR4Dag'_extends : Extends (Dir exR4Dag') exR4 :=
  extends_of_check (built_reachable _ _ _ (by decide) (by decide)).reachable exR4_reachable (by decide +kernel)
    (by decide +kernel) (by decide +kernel) (by decide +kernel) (by decide +kernel)

/-- The hypothesis of `c22_rule4_sound_partial` holds of it, and `rule4` does change the graph. -/
example : (∀ g' c, exR4.rule4 = .ok (g', c) → Extends (Dir exR4Dag') g') ∧ exR4.rule4.map Prod.snd = .ok true := by
  refine ⟨fun g' c he => c22_rule4_sound_partial exR4_reachable he exR4Dag'_extends ?_, by decide +kernel⟩
  intro u v a b h1 h2 h3 h4 h5 h6 h7
  have hw := exR4_reachable.pg.wf
  have key : ∀ u ∈ exR4.nodeList, ∀ v ∈ exR4.nodeList, ∀ a ∈ exR4.nodeList, ∀ b ∈ exR4.nodeList, u ≠ b →
      exR4.isConnected u b ≠ .ok true → exR4.getEdge u v = .ok (some (uE u v)) → exR4Dag'.getEdge v b = .ok (some (dE v b)) →
      exR4.getEdge u a = .ok (some (uE u a)) → exR4.getEdge a b = .ok (some (uE a b)) → exR4.isConnected v a = .ok true →
      exR4Dag'.getEdge u v = .ok (some (dE u v)) := by decide +kernel
  have m1 := Conn.mem hw (Und.conn hw h3)
  have m2 := Conn.mem hw (Und.conn hw h6)
  exact key u m1.1 v m1.2 a m2.1 b m2.2 h1 h2 h3 h4 h5 h6 h7

end examples
end Cdmir
