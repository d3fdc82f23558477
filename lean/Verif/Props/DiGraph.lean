import Verif.Props.GraphCore
import Verif.Lemmas.Topo
import Verif.Lemmas.DSepFacts

/-! Properties C08-C16: directed graphs. -/

namespace Cdmir
open Graph

section
variable {α : Type} [DecidableEq α]

theorem Reachable.dg {g : Graph α} (h : Reachable .digraph g) : g.DG := ⟨h.good.1, h.good.2⟩

/-- **C08.** Parents and children. -/
theorem c08_parents_children {g : Graph α} (h : ReachableSimple .digraph g) :
    (∀ u, u ∈ g.nodes → ∃ ps cs ns, g.getParents u = .ok ps ∧ g.getChildren u = .ok cs ∧ g.getNeighbours u = .ok ns ∧
      ps.Nodup ∧ cs.Nodup ∧ (∀ v, v ∈ ns ↔ v ∈ ps ∨ v ∈ cs) ∧ (∀ v, ¬ (v ∈ ps ∧ v ∈ cs)) ∧
      ps.length + cs.length = ns.length ∧
      (∀ v, v ∈ ps ↔ g.isFullyDirected v u = .ok true) ∧ (∀ v, v ∈ cs ↔ g.isFullyDirected u v = .ok true)) ∧
    (∀ u v pv cu, g.getParents v = .ok pv → g.getChildren u = .ok cu → (u ∈ pv ↔ v ∈ cu)) := by
  have hd := h.reachable.dg
  have hnl := h.noLoop
  have hfd : ∀ u v, g.isFullyDirected u v = .ok true ↔ Dir g u v := by
    intro u v
    rw [dir_iff hd.wf]
    by_cases huv : u ∈ g.nodeList ∧ v ∈ g.nodeList
    · rw [isFullyDirected_ok hd.wf huv.1 huv.2]; simp
    · unfold isFullyDirected
      rw [isConnected_err hd.wf huv]
      constructor
      · intro hh; cases hh
      · rintro ⟨_, h2⟩
        have : (g.mark u v).isSome := by rw [h2]; rfl
        exact absurd ⟨hd.wf.mark_left this, hd.wf.mark_right this⟩ huv
  have hpart : ∀ u v, v ∈ g.nbrs u ↔ v ∈ g.pa u ∨ v ∈ g.ch u := by
    intro u v
    rw [hd.mem_pa, hd.mem_ch]
    constructor
    · intro hv
      rw [mem_nbrs] at hv
      have hne : u ≠ v := by rintro rfl; rw [hnl u] at hv; simp at hv
      have hk := hd.good.kindOK
      unfold KindOK at hk
      rw [hd.kind] at hk
      rcases hk.1 u v hne hv with ⟨a, b⟩ | ⟨a, b⟩
      · right; rw [dir_iff hd.wf]; exact ⟨b, a⟩
      · left; rw [dir_iff hd.wf]; exact ⟨a, b⟩
    · rintro (hv | hv)
      · rw [mem_nbrs, ((dir_iff hd.wf v u).1 hv).1]; rfl
      · rw [mem_nbrs, ((dir_iff hd.wf u v).1 hv).2]; rfl
  have hdisj : ∀ u v, ¬ (v ∈ g.pa u ∧ v ∈ g.ch u) := by
    intro u v
    rw [hd.mem_pa, hd.mem_ch]
    exact fun hh => Dir.asymm hd.wf hh.1 hh.2
  refine ⟨?_, ?_⟩
  · intro u hu
    refine ⟨_, _, _, getParents_ok hd.wf hu, getChildren_ok hd.wf hu, getNeighbours_ok hd.wf hu, pa_nodup hd.wf u,
      ch_nodup hd.wf u, hpart u, hdisj u, ?_, ?_, ?_⟩
    · rw [← List.length_append]
      apply List.Perm.length_eq
      rw [List.perm_ext_iff_of_nodup]
      · intro v; rw [List.mem_append, hpart]
      · rw [List.nodup_append]
        refine ⟨pa_nodup hd.wf u, ch_nodup hd.wf u, ?_⟩
        rintro a ha b hb rfl
        exact hdisj u a ⟨ha, hb⟩
      · exact nbrs_nodup hd.wf u
    · intro v; rw [hfd, hd.mem_pa]
    · intro v; rw [hfd, hd.mem_ch]
  · intro u v pv cu h1 h2
    by_cases hu : u ∈ g.nodeList
    · by_cases hv : v ∈ g.nodeList
      · rw [getParents_ok hd.wf hv] at h1
        rw [getChildren_ok hd.wf hu] at h2
        cases h1; cases h2
        rw [hd.mem_pa, hd.mem_ch]
      · rw [getParents_err hd.wf hv] at h1; cases h1
    · rw [getChildren_err hd.wf hu] at h2; cases h2

theorem mapM_ok {β γ : Type} (f : β → Except Err γ) (k : β → γ) (l : List β) (h : ∀ x ∈ l, f x = .ok (k x)) :
    l.mapM f = .ok (l.map k) := by
  induction l with
  | nil => rfl
  | cons x t ih =>
    rw [List.mapM_cons, h x (by simp), ih (fun y hy => h y (by simp [hy]))]; rfl

theorem product_filter_length {β γ : Type} (l : List β) (m : List γ) (p : β → γ → Bool) :
    ((l ×ˢ m).filter (fun q => p q.1 q.2)).length = (l.map (fun a => (m.filter (p a)).length)).sum := by
  induction l with
  | nil => simp
  | cons a t ih =>
    rw [List.product_cons, List.filter_append, List.length_append, ih, List.map_cons, List.sum_cons]
    congr 1
    rw [List.filter_map, List.length_map]
    rfl

theorem filter_or_length {β : Type} (l : List β) (p q : β → Bool) (hx : ∀ x ∈ l, ¬ (p x = true ∧ q x = true)) :
    (l.filter (fun x => p x || q x)).length = (l.filter p).length + (l.filter q).length := by
  induction l with
  | nil => rfl
  | cons a t ih =>
    have h1 := hx a (by simp)
    have h2 := ih (fun x h => hx x (by simp [h]))
    rw [List.filter_cons, List.filter_cons, List.filter_cons]
    cases hp : p a <;> cases hq : q a <;> simp [hp, hq] at h1 ⊢ <;> omega

theorem product_swap_length {β : Type} [DecidableEq β] {l : List β} (hl : l.Nodup) (p : β × β → Bool) :
    ((l ×ˢ l).filter p).length = ((l ×ˢ l).filter (fun q => p q.swap)).length := by
  have hp : ((l ×ˢ l).map Prod.swap).Perm (l ×ˢ l) := by
    rw [List.perm_ext_iff_of_nodup]
    · rintro ⟨a, b⟩
      simp only [List.mem_map, Prod.exists, Prod.swap_prod_mk, Prod.mk.injEq, List.mem_product]
      constructor
      · rintro ⟨c, d, ⟨h1, h2⟩, rfl, rfl⟩; exact ⟨h2, h1⟩
      · rintro ⟨h1, h2⟩; exact ⟨b, a, ⟨h2, h1⟩, rfl, rfl⟩
    · exact (hl.product hl).map (fun a b h => by simpa using congrArg Prod.swap h)
    · exact hl.product hl
  rw [← (hp.filter p).length_eq, List.filter_map, List.length_map]
  rfl

/-- **C08.** Degree sums (self-loops allowed: they are no parents, children or listed edges). -/
theorem c08_degree_sum {g : Graph α} (h : Reachable .digraph g) :
    ∃ ins outs e, g.nodes.mapM g.inDegree = .ok ins ∧ g.nodes.mapM g.outDegree = .ok outs ∧
      g.numberOfEdges = .ok e ∧ ins.sum = e ∧ outs.sum = e := by
  classical
  have hd := h.dg
  refine ⟨_, _, g.edgeList.length, mapM_ok _ _ _ (fun u hu => inDegree_ok hd.wf hu),
    mapM_ok _ _ _ (fun u hu => outDegree_ok hd.wf hu), by unfold numberOfEdges; rw [edges_ok hd.wf]; rfl, ?_⟩
  have hin : (g.nodes.map (fun u => (g.pa u).length)).sum =
      ((g.nodes ×ˢ g.nodes).filter (fun q => decide (Dir g q.2 q.1))).length := by
    rw [product_filter_length g.nodes g.nodes (fun a b => decide (Dir g b a))]
    congr 1
    apply List.map_congr_left
    intro u _
    apply List.Perm.length_eq
    refine (List.perm_ext_iff_of_nodup (pa_nodup hd.wf u) (hd.wf.nodup.filter _)).2 ?_
    intro v
    rw [hd.mem_pa, List.mem_filter, decide_eq_true_eq]
    exact ⟨fun hh => ⟨(Dir.mem hd.wf hh).1, hh⟩, fun hh => hh.2⟩
  have hout : (g.nodes.map (fun u => (g.ch u).length)).sum =
      ((g.nodes ×ˢ g.nodes).filter (fun q => decide (Dir g q.1 q.2))).length := by
    rw [product_filter_length g.nodes g.nodes (fun a b => decide (Dir g a b))]
    congr 1
    apply List.map_congr_left
    intro u _
    apply List.Perm.length_eq
    refine (List.perm_ext_iff_of_nodup (ch_nodup hd.wf u) (hd.wf.nodup.filter _)).2 ?_
    intro v
    rw [hd.mem_ch, List.mem_filter, decide_eq_true_eq]
    exact ⟨fun hh => ⟨(Dir.mem hd.wf hh).2, hh⟩, fun hh => hh.2⟩
  have hsw := product_swap_length (l := g.nodes) hd.wf.nodup (fun q => decide (Dir g q.1 q.2))
  have hE := edgeList_length hd.wf
  have hor : (g.nodeList ×ˢ g.nodeList).filter (fun p => p.1 ≠ p.2 ∧ (g.mark p.1 p.2).isSome = true) =
      (g.nodes ×ˢ g.nodes).filter (fun q => decide (Dir g q.1 q.2) || decide (Dir g q.2 q.1)) := by
    apply List.filter_congr
    rintro ⟨u, v⟩ _
    rw [Bool.eq_iff_iff]
    simp only [ne_eq, decide_eq_true_eq, Bool.or_eq_true]
    constructor
    · rintro ⟨hne, hs⟩
      have hk := hd.good.kindOK
      unfold KindOK at hk
      rw [hd.kind] at hk
      rcases hk.1 u v hne hs with ⟨a, b⟩ | ⟨a, b⟩
      · left; rw [dir_iff hd.wf]; exact ⟨b, a⟩
      · right; rw [dir_iff hd.wf]; exact ⟨a, b⟩
    · rintro (hv | hv)
      · refine ⟨by rintro rfl; exact Dir.asymm hd.wf hv hv, ?_⟩
        rw [((dir_iff hd.wf u v).1 hv).2]; rfl
      · refine ⟨by rintro rfl; exact Dir.asymm hd.wf hv hv, ?_⟩
        rw [((dir_iff hd.wf v u).1 hv).1]; rfl
  rw [hor, filter_or_length _ _ _ (by
    rintro ⟨u, v⟩ _ ⟨h1, h2⟩
    simp only [decide_eq_true_eq] at h1 h2
    exact Dir.asymm hd.wf h1 h2)] at hE
  simp only [Prod.fst_swap, Prod.snd_swap] at hsw
  rw [hin, hout]
  omega

/-- **C09.** `is_d_separate` decides d-separation; in particular it terminates without exception. -/
theorem c09_dsep {g : Graph α} (h : Reachable .digraph g) (x y : α) (z : List α) (hx : x ∈ g.nodes)
    (hz : ∀ w ∈ z, w ∈ g.nodes) (hxz : x ∉ z) (hyz : y ∉ z) :
    ∃ b, g.isDSeparate x y (.reiterable z) = .ok b ∧ (b = true ↔ Spec.DSep (Dir g) x y (fun w => w ∈ z)) :=
  isDSeparate_iff h.dg hx hz hxz hyz

/-- **C11.** The remaining cases of `is_d_separate`: an endpoint in `z`, unknown nodes in `z`, unknown start node. -/
theorem c11_dsep_endpoints {g : Graph α} (h : Reachable .digraph g) (x y : α) (z : List α) :
    (x ∈ g.nodes → (∀ w ∈ z, w ∈ g.nodes) → x ∈ z ∨ y ∈ z → g.isDSeparate x y (.reiterable z) = .ok true) ∧
    (x ∈ g.nodes → (∀ w ∈ z, w ∈ g.nodes) → x ∉ z → g.isDSeparate x x (.reiterable z) = .ok false) ∧
    ((∃ w ∈ z, w ∉ g.nodes) → g.isDSeparate x y (.reiterable z) = .error .key) ∧
    (x ∉ g.nodes → (∀ w ∈ z, w ∈ g.nodes) → g.isDSeparate x y (.reiterable z) = if y = x then .ok false else .error .key) := by
  have hd := h.dg
  refine ⟨?_, ?_, ?_, ?_⟩
  · intro hx hz hor
    obtain ⟨a, ha, hmem⟩ := ancestorsOf_ok hd (.reiterable z) hz
    obtain ⟨ys, h1, h2⟩ := getReachableNodes_ok hd.wf x hx (.reiterable z) a ha
    have hy : y ∉ ys := by
      rw [h2]
      rintro ⟨hyz, d, hr⟩
      rcases hor with hxz | hyz'
      · rcases Relation.ReflTransGen.cases_head hr with heq | ⟨s, hs, _⟩
        · simp only [Prod.mk.injEq] at heq
          exact hyz (heq.1 ▸ hxz)
        · obtain ⟨w, e⟩ := s
          rw [mem_trailSucc] at hs
          have : x ∈ (ZArg.reiterable z).later := hxz
          rcases hs with hs | hs | hs
          · exact hs.2.1 this
          · exact hs.1 this
          · simp at hs
      · exact hyz hyz'
    unfold isDSeparate
    rw [h1]
    simp [hy]
  · intro hx hz hxz
    obtain ⟨b, hb, hiff⟩ := isDSeparate_iff hd (y := x) hx hz hxz hxz
    rw [hb]
    cases b with
    | false => rfl
    | true => exact absurd (hiff.1 rfl) (Spec.not_dsep_self x)
  · intro hz
    unfold isDSeparate getReachableNodes
    rw [ancestorsOf_err hd.wf (.reiterable z) hz]
    simp
  · intro hx hz
    obtain ⟨a, ha, hmem⟩ := ancestorsOf_ok hd (.reiterable z) hz
    have hxz : x ∉ z := fun hh => hx (hz x hh)
    have hr : g.getReachableNodes x (.reiterable z) = ([x], some .key) := by
      unfold getReachableNodes
      rw [ha]
      simp only [ZArg.later, trailLoop, trailPushes, hxz, not_false_eq_true, and_self, ↓reduceIte,
        getParents_err hd.wf hx, bind, Except.bind]
    unfold isDSeparate
    rw [hr]
    simp

/-- **C11.** Only the members of `z` matter, not their order or number (unknown nodes included). -/
theorem c11_dsep_set {g : Graph α} (h : Reachable .digraph g) (x y : α) (z z' : List α) (hzz : ∀ w, w ∈ z ↔ w ∈ z') :
    g.isDSeparate x y (.reiterable z) = g.isDSeparate x y (.reiterable z') := by
  obtain ⟨a1, a2, a3, a4⟩ := c11_dsep_endpoints h x y z
  obtain ⟨b1, b2, b3, b4⟩ := c11_dsep_endpoints h x y z'
  by_cases hz : ∀ w ∈ z, w ∈ g.nodes
  · have hz' : ∀ w ∈ z', w ∈ g.nodes := fun w hw => hz w ((hzz w).2 hw)
    by_cases hx : x ∈ g.nodes
    · by_cases hor : x ∈ z ∨ y ∈ z
      · rw [a1 hx hz hor, b1 hx hz' (by rwa [hzz, hzz] at hor)]
      · obtain ⟨c1, c2⟩ := not_or.1 hor
        obtain ⟨b, hb, hbi⟩ := c09_dsep h x y z hx hz c1 c2
        obtain ⟨b', hb', hbi'⟩ := c09_dsep h x y z' hx hz' (by rwa [← hzz]) (by rwa [← hzz])
        have : b = b' := by rw [Bool.eq_iff_iff, hbi, hbi', Spec.dsep_congr hzz]
        rw [hb, hb', this]
    · rw [a4 hx hz, b4 hx hz']
  · push Not at hz
    obtain ⟨w, hw, hwn⟩ := hz
    rw [a3 ⟨w, hw, hwn⟩, b3 ⟨w, (hzz w).1 hw, hwn⟩]

/-- **C10.** Symmetry of `is_d_separate`. -/
theorem c10_dsep_symm {g : Graph α} (h : Reachable .digraph g) (x y : α) (z : List α) (hx : x ∈ g.nodes)
    (hy : y ∈ g.nodes) : g.isDSeparate x y (.reiterable z) = g.isDSeparate y x (.reiterable z) := by
  obtain ⟨a1, a2, a3, a4⟩ := c11_dsep_endpoints h x y z
  obtain ⟨b1, b2, b3, b4⟩ := c11_dsep_endpoints h y x z
  by_cases hz : ∀ w ∈ z, w ∈ g.nodes
  · by_cases hor : x ∈ z ∨ y ∈ z
    · rw [a1 hx hz hor, b1 hy hz hor.symm]
    · obtain ⟨c1, c2⟩ := not_or.1 hor
      obtain ⟨b, hb, hbi⟩ := c09_dsep h x y z hx hz c1 c2
      obtain ⟨b', hb', hbi'⟩ := c09_dsep h y x z hy hz c2 c1
      have : b = b' := by
        rw [Bool.eq_iff_iff, hbi, hbi']
        exact ⟨Spec.DSep.symm, Spec.DSep.symm⟩
      rw [hb, hb', this]
  · push Not at hz
    obtain ⟨w, hw, hwn⟩ := hz
    rw [a3 ⟨w, hw, hwn⟩, b3 ⟨w, hw, hwn⟩]

/-- **C12, what holds.** The full claim would be equality for every `z`; it is false (`c12_iterator_false`). For nodes
of the graph: a one-shot iterator never yields more separations than a list, and an empty `z` gives the same answer. -/
theorem c12_iterable_kind_partial {g : Graph α} (h : Reachable .digraph g) (x y : α) (z : List α) (hx : x ∈ g.nodes)
    (hz : ∀ w ∈ z, w ∈ g.nodes) :
    (g.isDSeparate x y (.iterator z) = .ok true → g.isDSeparate x y (.reiterable z) = .ok true) ∧
    (z = [] → g.isDSeparate x y (.iterator z) = g.isDSeparate x y (.reiterable z)) := by
  have hd := h.dg
  constructor
  · intro hit
    obtain ⟨a, ha, hmem⟩ := ancestorsOf_ok hd (.reiterable z) hz
    obtain ⟨ys, h1, h2⟩ := getReachableNodes_ok hd.wf x hx (.reiterable z) a ha
    obtain ⟨a', ha', hmem'⟩ := ancestorsOf_ok hd (.iterator z) hz
    obtain ⟨ys', h1', h2'⟩ := getReachableNodes_ok hd.wf x hx (.iterator z) a' ha'
    have haa : ∀ w, w ∈ a' ↔ w ∈ a := fun w => by rw [hmem, hmem']; rfl
    have hy : y ∉ ys' := by
      intro hy
      unfold isDSeparate at hit
      rw [h1'] at hit
      simp [hy] at hit
    have : y ∉ ys := by
      intro hy1
      apply hy
      rw [h2] at hy1
      rw [h2']
      obtain ⟨_, d, hr⟩ := hy1
      refine ⟨by simp [ZArg.later], d, Relation.ReflTransGen.mono ?_ _ _ hr⟩
      rintro ⟨u, e⟩ ⟨w, f⟩ hm
      rw [mem_trailSucc] at hm ⊢
      rcases hm with hm | hm | hm
      · exact Or.inl ⟨hm.1, by simp [ZArg.later], hm.2.2⟩
      · exact Or.inr (Or.inl ⟨by simp [ZArg.later], hm.2⟩)
      · exact Or.inr (Or.inr ⟨hm.1, (haa _).2 hm.2.1, hm.2.2⟩)
    unfold isDSeparate
    rw [h1]
    simp [this]
  · rintro rfl
    rfl

/-- **C13.** Adjacent nodes are d-connected given any `z` without them (acyclicity is not needed). -/
theorem c13_adjacent {g : Graph α} (h : ReachableSimple .digraph g) (x y : α) (z : List α)
    (hc : g.isConnected x y = .ok true) (hz : ∀ w ∈ z, w ∈ g.nodes) (hxz : x ∉ z) (hyz : y ∉ z) :
    g.isDSeparate x y (.reiterable z) = .ok false := by
  have hd := h.reachable.dg
  obtain ⟨hx, hy, hs⟩ := (isConnected_ok_iff hd.wf _ _ _).1 hc
  obtain ⟨b, hb, hbi⟩ := c09_dsep h.reachable x y z hx hz hxz hyz
  have hne : x ≠ y := by rintro rfl; rw [h.noLoop x] at hs; simp at hs
  have hadj : Spec.Adj (Dir g) x y := by
    have hk := hd.good.kindOK
    unfold KindOK at hk
    rw [hd.kind] at hk
    rcases hk.1 x y hne hs.symm with ⟨a, b⟩ | ⟨a, b⟩
    · left; rw [dir_iff hd.wf]; exact ⟨b, a⟩
    · right; rw [dir_iff hd.wf]; exact ⟨a, b⟩
  cases b with
  | false => exact hb
  | true => exact absurd (hbi.1 rfl) (Spec.not_dsep_of_adj hne hadj)

/-- **C13.** Non-adjacent nodes of an acyclic graph are separated by the parents of the one that is not an ancestor
of the other. -/
theorem c13_parents_separate {g : Graph α} (h : Reachable .digraph g) (ac : Spec.Acyclic (Dir g)) (x y : α) (hxy : x ≠ y)
    (hx : x ∈ g.nodes) (hc : g.isConnected x y = .ok false) (hnd : ¬ Spec.Desc (Dir g) y x) (ps : List α)
    (hps : g.getParents y = .ok ps) : x ∉ ps ∧ y ∉ ps ∧ g.isDSeparate x y (.reiterable ps) = .ok true := by
  have hd := h.dg
  obtain ⟨_, hy, hs⟩ := (isConnected_ok_iff hd.wf _ _ _).1 hc
  rw [getParents_ok hd.wf hy] at hps
  cases hps
  have hna : ¬ Spec.Adj (Dir g) x y := by
    rintro (hh | hh)
    · rw [((dir_iff hd.wf _ _).1 hh).2] at hs; simp at hs
    · rw [((dir_iff hd.wf _ _).1 hh).1] at hs; simp at hs
  have h1 : x ∉ g.pa y := by rw [hd.mem_pa]; exact fun hh => hna (Or.inl hh)
  have h2 : y ∉ g.pa y := by rw [hd.mem_pa]; exact ac.irrefl y
  refine ⟨h1, h2, ?_⟩
  obtain ⟨b, hb, hbi⟩ := c09_dsep h x y (g.pa y) hx (fun w hw => pa_sub hd.wf hw) h1 h2
  have : b = true := by
    rw [hbi, Spec.dsep_congr (fun w => hd.mem_pa y w)]
    exact Spec.dsep_parents ac hxy hna hnd
  rw [hb, this]

/-- **C13.** Hence every two non-adjacent nodes of an acyclic graph are separable, in both argument orders, by the
parents of one of them. -/
theorem c13_separable {g : Graph α} (h : Reachable .digraph g) (ac : Spec.Acyclic (Dir g)) (x y : α) (hxy : x ≠ y)
    (hc : g.isConnected x y = .ok false) :
    ∃ ps, (g.getParents x = .ok ps ∨ g.getParents y = .ok ps) ∧ x ∉ ps ∧ y ∉ ps ∧
      g.isDSeparate x y (.reiterable ps) = .ok true ∧ g.isDSeparate y x (.reiterable ps) = .ok true := by
  have hd := h.dg
  obtain ⟨hx, hy, hs⟩ := (isConnected_ok_iff hd.wf _ _ _).1 hc
  by_cases hnd : Spec.Desc (Dir g) y x
  · have hnd' : ¬ Spec.Desc (Dir g) x y := by
      intro hh
      rcases Relation.reflTransGen_iff_eq_or_transGen.1 hh with heq | ht
      · exact hxy heq.symm
      · exact ac x (ht.trans_left hnd)
    have hc' : g.isConnected y x = .ok false := by
      rw [isConnected_ok hd.wf hy hx, ← hd.wf.symm_iff, ← isConnected_ok hd.wf hx hy]; exact hc
    obtain ⟨h1, h2, h3⟩ := c13_parents_separate h ac y x (Ne.symm hxy) hy hc' hnd' _ (getParents_ok hd.wf hx)
    exact ⟨_, Or.inl (getParents_ok hd.wf hx), h2, h1, by rw [c10_dsep_symm h x y _ hx hy]; exact h3, h3⟩
  · obtain ⟨h1, h2, h3⟩ := c13_parents_separate h ac x y hxy hx hc hnd _ (getParents_ok hd.wf hy)
    exact ⟨_, Or.inr (getParents_ok hd.wf hy), h1, h2, h3, by rw [c10_dsep_symm h y x _ hy hx]; exact h3⟩

/-- **C14.** `topo_sort` lists parents first and, for an acyclic graph, every node. -/
theorem c14_topo_sort {g : Graph α} (h : Reachable .digraph g) :
    ∃ out, g.topoSort = .ok out ∧ out.Nodup ∧ (∀ k ∈ out, k ∈ g.nodes) ∧
      (∀ p k, k ∈ out → Dir g p k → p ∈ out ∧ out.idxOf p < out.idxOf k) ∧
      (Spec.Acyclic (Dir g) → out.Perm g.nodes) := by
  have hd := h.dg
  obtain ⟨out, h1, h2, h3, h4, h5⟩ := topoSort_ok hd
  refine ⟨out, h1, h2, h3, ?_, ?_⟩
  · intro p k hk hp
    obtain ⟨l, r, hlr⟩ := List.mem_iff_append.1 hk
    have hpl := h5 l k r hlr p hp
    have hkl : k ∉ l := by
      intro hh
      rw [hlr, List.nodup_append] at h2
      exact h2.2.2 k hh k (by simp) rfl
    refine ⟨by rw [hlr]; simp [hpl], ?_⟩
    rw [hlr, List.idxOf_append_of_mem hpl, List.idxOf_append_of_notMem hkl]
    have := List.idxOf_lt_length_of_mem hpl
    omega
  · intro ac
    refine (List.perm_ext_iff_of_nodup h2 hd.wf.nodup).2 ?_
    intro k
    refine ⟨h3 k, fun hk => ?_⟩
    by_contra hko
    obtain ⟨u, ⟨hu1, hu2⟩, hu3⟩ := exists_minimal g.nodeList (fun u v hh => (Dir.mem hd.wf hh).1) ac
      (fun u => u ∈ g.nodeList ∧ u ∉ out) ⟨k, hk, hko⟩
    refine hu2 (h4 u hu1 (fun p hp => ?_))
    by_contra hpo
    exact hu3 p hp ⟨(Dir.mem hd.wf hp).1, hpo⟩

/-- **C15.** `is_acyclic` decides acyclicity of the stored directed edges. -/
theorem c15_is_acyclic {g : Graph α} (h : Reachable .digraph g) :
    ∃ b, g.isAcyclic = .ok b ∧ (b = true ↔ Spec.Acyclic (Dir g)) := by
  have hd := h.dg
  obtain ⟨out, h1, h2, h3, h4, h5⟩ := c14_topo_sort h
  refine ⟨decide (out.length = g.numberOfNodes), by unfold isAcyclic; rw [h1]; rfl, ?_⟩
  rw [decide_eq_true_eq]
  constructor
  · intro hlen u hcyc
    have hall : ∀ k ∈ g.nodes, k ∈ out := by
      have hsp : out.Subperm g.nodes := h2.subperm h3
      have : out.Perm g.nodes := hsp.perm_of_length_le (by rw [hlen]; exact Nat.le_refl _)
      intro k hk
      exact this.mem_iff.2 hk
    have hmono : ∀ a b, Relation.TransGen (Dir g) a b → out.idxOf a < out.idxOf b := by
      intro a b hab
      induction hab with
      | single e => exact (h4 _ _ (hall _ (Dir.mem hd.wf e).2) e).2
      | tail _ e ih => exact Nat.lt_trans ih (h4 _ _ (hall _ (Dir.mem hd.wf e).2) e).2
    exact Nat.lt_irrefl _ (hmono u u hcyc)
  · intro ac
    exact (h5 ac).length_eq

end

/-! ### C12, C16: negations, and concrete cases -/

section examples

/-- Chain 1 -> 2 -> 3 with a collider 1 -> 4 <- 3 and 4 -> 5. -/
def exChainOps : List (Op Nat) :=
  [.addEdges [⟨1, 2, .tail, .arrow⟩, ⟨2, 3, .tail, .arrow⟩, ⟨1, 4, .tail, .arrow⟩, ⟨3, 4, .tail, .arrow⟩,
    ⟨4, 5, .tail, .arrow⟩] false]

/-- The graph built by `exChainOps`. -/
def exChain : Graph Nat :=
  match Graph.init .digraph [1, 2, 3, 4, 5] with
  | .ok g => g.run exChainOps
  | .error _ => ⟨.digraph, [], [], []⟩

theorem exChain_reachable : ReachableSimple .digraph exChain :=
  ⟨[1, 2, 3, 4, 5], ⟨.digraph, [1, 2, 3, 4, 5], [1, 2, 3, 4, 5], [(1, []), (2, []), (3, []), (4, []), (5, [])]⟩,
    exChainOps, rfl, by decide, rfl⟩

/-- **C12 is false**: the same member given as a one-shot iterator blocks nothing. -/
theorem c12_iterator_false :
    ∃ (g : Graph Nat) (x y : Nat) (z : List Nat), ReachableSimple .digraph g ∧
      g.isDSeparate x y (.reiterable z) = .ok true ∧ g.isDSeparate x y (.iterator z) = .ok false :=
  ⟨exChain, 1, 3, [2], exChain_reachable, by decide +kernel, by decide +kernel⟩

/-- **C16 is false**: a self-loop is accepted and the graph is still reported acyclic. -/
theorem c16_self_loop_false :
    ∃ (g g' : Graph Nat) (u : Nat), ReachableSimple .digraph g ∧ g.addEdge ⟨u, u, .tail, .arrow⟩ = .ok g' ∧
      g'.isConnected u u = .ok true ∧ g'.isAcyclic = .ok true :=
  ⟨exChain, _, 1, exChain_reachable, rfl, by decide +kernel, by decide +kernel⟩

/-- **C16, what holds.** The full claim (refused or noticed) is false. What is true of every DiGraph and node: the
self-loop is stored without exception, changes no answer about other pairs and is invisible to `is_acyclic`. -/
theorem c16_self_loop_partial {α : Type} [DecidableEq α] {g : Graph α} (h : Reachable .digraph g) (u : α)
    (hu : u ∈ g.nodes) (hc : g.isConnected u u = .ok false) :
    ∃ g', g.addEdge ⟨u, u, .tail, .arrow⟩ = .ok g' ∧ g'.isConnected u u = .ok true ∧ g'.isAcyclic = g.isAcyclic := by
  have hd := h.dg
  have hm : g.mark u u = none := by
    rw [isConnected_ok hd.wf hu hu] at hc; simpa using hc
  have hadd := (addEdge_ok_iff (g' := g.put ⟨u, u, .tail, .arrow⟩) (ow := false) hd.wf).2
    ⟨⟨by rw [hd.kind]; exact ⟨rfl, rfl⟩, hu, hu, Or.inr hm⟩, rfl⟩
  have hw' := put_WF hd.wf (e := ⟨u, u, .tail, .arrow⟩) hu hu
  have hr' : Reachable .digraph (g.put ⟨u, u, .tail, .arrow⟩) := by
    obtain ⟨l, g0, ops, h0, rfl⟩ := h
    refine ⟨l, g0, ops ++ [.addEdge ⟨u, u, .tail, .arrow⟩ false], h0, ?_⟩
    have hrun : g0.run (ops ++ [.addEdge ⟨u, u, .tail, .arrow⟩ false]) =
        ((g0.run ops).step (.addEdge ⟨u, u, .tail, .arrow⟩ false)).1 := by
      unfold run; rw [List.foldl_append]; rfl
    rw [hrun]
    generalize g0.run ops = g1 at *
    simp only [step, hadd]
  refine ⟨_, hadd, ?_, ?_⟩
  · rw [isConnected_ok hw' hu hu, mark_put]; simp
  · obtain ⟨b, hb, hbi⟩ := c15_is_acyclic h
    obtain ⟨b', hb', hbi'⟩ := c15_is_acyclic hr'
    have hdir : Dir (g.put ⟨u, u, .tail, .arrow⟩) = Dir g := by
      funext a c
      apply propext
      rw [dir_iff hw', dir_iff hd.wf, mark_put, mark_put]
      by_cases hac : a = u ∧ c = u
      · obtain ⟨rfl, rfl⟩ := hac
        simp [hm]
      · have : ¬ (c = u ∧ a = u) := fun hh => hac ⟨hh.2, hh.1⟩
        simp [hac, this]
    rw [hb, hb']
    rw [hdir] at hbi'
    have : b' = b := by rw [Bool.eq_iff_iff, hbi, hbi']
    rw [this]

example := c08_parents_children exChain_reachable
example : exChain.inDegree 4 = .ok 2 ∧ exChain.numberOfEdges = .ok 5 := by decide +kernel
example : (1 : Nat) ∈ exChain.nodes ∧ (∀ w ∈ [2, 5], w ∈ exChain.nodes) ∧ 1 ∉ [2, 5] ∧ 3 ∉ [2, 5] := by decide
example : exChain.isDSeparate 1 3 (.reiterable [2]) = .ok true ∧ exChain.isDSeparate 1 3 (.reiterable [2, 5]) = .ok false := by
  decide +kernel
example : exChain.isConnected 1 3 = .ok false ∧ exChain.isConnected 1 4 = .ok true ∧ exChain.getParents 3 = .ok [2] := by
  decide +kernel
example : exChain.isAcyclic = .ok true ∧ exChain.topoSort = .ok [1, 2, 3, 4, 5] := by decide +kernel

theorem exChain_acyclic : Spec.Acyclic (Dir exChain) := by
  obtain ⟨b, hb, hiff⟩ := c15_is_acyclic exChain_reachable.reachable
  have : exChain.isAcyclic = .ok true := by decide +kernel
  rw [this] at hb
  exact hiff.1 (Except.ok.inj hb).symm

example : ∃ ps, (exChain.getParents 1 = .ok ps ∨ exChain.getParents 3 = .ok ps) ∧ 1 ∉ ps ∧ 3 ∉ ps ∧
    exChain.isDSeparate 1 3 (.reiterable ps) = .ok true ∧ exChain.isDSeparate 3 1 (.reiterable ps) = .ok true :=
  c13_separable exChain_reachable.reachable exChain_acyclic 1 3 (by decide) (by decide +kernel)

end examples
end Cdmir
