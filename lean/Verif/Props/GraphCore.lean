import Verif.Spec.Reach
import Verif.Lemmas.Edges

/-! Properties C01-C07: the mixed graph container. -/

namespace Cdmir
open Graph

section
variable {α : Type} [DecidableEq α]

theorem Reachable.good {k : Kind} {g : Graph α} (h : Reachable k g) : g.Good ∧ g.kind = k := by
  obtain ⟨l, g0, ops, h0, rfl⟩ := h
  obtain ⟨h1, h2⟩ := init_good h0
  obtain ⟨h3, h4⟩ := run_good h1 ops
  exact ⟨h3, h4.trans h2⟩

theorem ReachableSimple.reachable {k : Kind} {g : Graph α} (h : ReachableSimple k g) : Reachable k g := by
  obtain ⟨l, g0, ops, h0, _, rfl⟩ := h
  exact ⟨l, g0, ops, h0, rfl⟩

theorem ReachableSimple.noLoop {k : Kind} {g : Graph α} (h : ReachableSimple k g) : g.NoLoop := by
  obtain ⟨l, g0, ops, h0, hs, rfl⟩ := h
  refine run_noLoop (init_good h0).1 (fun u => (init_WF h0).2.2.2 u u) ops (fun o ho e he => hs o ho e ?_)
  cases o <;> exact he

/-- **C01.** Structural consistency after any history. -/
theorem c01_consistent {k : Kind} {g : Graph α} (h : Reachable k g) :
    g.nodes.Nodup ∧
    g.numberOfNodes = g.nodes.length ∧
    (∀ u v, (∃ b, g.isConnected u v = .ok b) ↔ u ∈ g.nodes ∧ v ∈ g.nodes) ∧
    (∀ u v, ¬ (u ∈ g.nodes ∧ v ∈ g.nodes) → g.isConnected u v = .error .assertion) ∧
    (∀ u v, u ∈ g.nodes → v ∈ g.nodes → g.isConnected u v = g.isConnected v u) ∧
    (∀ u, (∃ ns, g.getNeighbours u = .ok ns) ↔ u ∈ g.nodes) ∧
    (∀ u ns, g.getNeighbours u = .ok ns → ns.Nodup ∧ ∀ v, v ∈ ns ↔ g.isConnected u v = .ok true) ∧
    (∀ u v nu nv, g.getNeighbours u = .ok nu → g.getNeighbours v = .ok nv → (u ∈ nv ↔ v ∈ nu)) := by
  obtain ⟨⟨hw, _⟩, _⟩ := h.good
  have nb : ∀ u ns, g.getNeighbours u = .ok ns → u ∈ g.nodeList ∧ ns = g.nbrs u := by
    intro u ns hns
    by_cases hu : u ∈ g.nodeList
    · rw [getNeighbours_ok hw hu] at hns
      exact ⟨hu, (Except.ok.inj hns).symm⟩
    · rw [getNeighbours_err hw hu] at hns; cases hns
  refine ⟨hw.nodup, rfl, ?_, fun u v huv => isConnected_err hw huv, ?_, ?_, ?_, ?_⟩
  · intro u v
    constructor
    · rintro ⟨b, hb⟩
      have := (isConnected_ok_iff hw u v b).1 hb
      exact ⟨this.1, this.2.1⟩
    · rintro ⟨hu, hv⟩
      exact ⟨_, isConnected_ok hw hu hv⟩
  · intro u v hu hv
    rw [isConnected_ok hw hu hv, isConnected_ok hw hv hu, hw.symm_iff u v]
  · intro u
    constructor
    · rintro ⟨ns, hns⟩; exact (nb u ns hns).1
    · intro hu; exact ⟨_, getNeighbours_ok hw hu⟩
  · intro u ns hns
    obtain ⟨hu, rfl⟩ := nb u ns hns
    refine ⟨nbrs_nodup hw u, fun v => ?_⟩
    rw [mem_nbrs, isConnected_ok_iff hw]
    constructor
    · intro hs; exact ⟨hu, hw.mark_right hs, hs.symm⟩
    · intro hs; exact hs.2.2.symm
  · intro u v nu nv hu hv
    obtain ⟨hu, rfl⟩ := nb u nu hu
    obtain ⟨hv, rfl⟩ := nb v nv hv
    rw [mem_nbrs, mem_nbrs, hw.symm_iff u v]

/-- **C02.** `add_edge` followed by `get_edge`. -/
theorem c02_add_get {k : Kind} {g g' : Graph α} (h : Reachable k g) (e : Edge α) (ow : Bool) (hne : e.u ≠ e.v)
    (he : g.addEdge e ow = .ok g') :
    g'.getEdge e.u e.v = .ok (some e) ∧
    g'.getEdge e.v e.u = .ok (some ⟨e.v, e.u, e.mv, e.mu⟩) ∧
    (∀ a b, ¬ (a = e.u ∧ b = e.v) → ¬ (a = e.v ∧ b = e.u) → g'.getEdge a b = g.getEdge a b) ∧
    g'.nodes = g.nodes ∧ g'.kind = g.kind := by
  obtain ⟨⟨hw, _⟩, _⟩ := h.good
  obtain ⟨⟨h1, h2, h3, h4⟩, rfl⟩ := (addEdge_ok_iff hw).1 he
  have hw' := put_WF hw h2 h3
  have m1 : (g.put e).mark e.u e.v = some e.mv := by
    rw [mark_put, if_neg (fun c => hne c.1), if_pos ⟨rfl, rfl⟩]
  have m2 : (g.put e).mark e.v e.u = some e.mu := by rw [mark_put, if_pos ⟨rfl, rfl⟩]
  refine ⟨?_, ?_, ?_, rfl, rfl⟩
  · rw [getEdge_ok hw' h2 h3, edge?, m1, m2]
  · rw [getEdge_ok hw' h3 h2, edge?, m1, m2]
  · intro a b c1 c2
    have f1 : (g.put e).mark a b = g.mark a b := by rw [mark_put, if_neg c2, if_neg c1]
    have f2 : (g.put e).mark b a = g.mark b a := by
      rw [mark_put, if_neg (fun c => c1 ⟨c.2, c.1⟩), if_neg (fun c => c2 ⟨c.2, c.1⟩)]
    by_cases hab : a ∈ g.nodeList ∧ b ∈ g.nodeList
    · rw [getEdge_ok hw hab.1 hab.2, getEdge_ok hw' hab.1 hab.2, edge?, edge?, f1, f2]
    · rw [getEdge_err hw hab, getEdge_err hw' hab]

/-- **C03.** `remove_edge`: succeeds on nodes of the graph, removes exactly that pair; absent edge: no change. -/
theorem c03_remove_edge {k : Kind} {g : Graph α} (h : Reachable k g) (u v : α) :
    (u ∈ g.nodes ∧ v ∈ g.nodes →
      ∃ g', g.removeEdge u v = .ok g' ∧ g'.getEdge u v = .ok none ∧ g'.getEdge v u = .ok none ∧
        (∀ a b, ¬ (a = u ∧ b = v) → ¬ (a = v ∧ b = u) → g'.getEdge a b = g.getEdge a b) ∧
        (g.isConnected u v = .ok false → g' = g) ∧ g'.nodes = g.nodes ∧ g'.kind = g.kind) ∧
    (¬ (u ∈ g.nodes ∧ v ∈ g.nodes) → g.removeEdge u v = .error .assertion) := by
  obtain ⟨⟨hw, _⟩, _⟩ := h.good
  refine ⟨?_, fun hh => removeEdge_err hw hh⟩
  rintro ⟨hu, hv⟩
  refine ⟨_, removeEdge_ok hw hu hv, ?_⟩
  split_ifs with hs
  · have hw' := drop_WF hw hu hv
    refine ⟨?_, ?_, ?_, ?_, rfl, rfl⟩
    · rw [getEdge_ok hw' hu hv, edge?, mark_drop hw, mark_drop hw, if_pos (by simp), if_pos (by simp)]
    · rw [getEdge_ok hw' hv hu, edge?, mark_drop hw, mark_drop hw, if_pos (by simp), if_pos (by simp)]
    · intro a b c1 c2
      have f1 : (g.drop u v).mark a b = g.mark a b := by rw [mark_drop hw, if_neg (by tauto)]
      have f2 : (g.drop u v).mark b a = g.mark b a := by rw [mark_drop hw, if_neg (by tauto)]
      by_cases hab : a ∈ g.nodeList ∧ b ∈ g.nodeList
      · rw [getEdge_ok hw hab.1 hab.2, getEdge_ok hw' hab.1 hab.2, edge?, edge?, f1, f2]
      · rw [getEdge_err hw hab, getEdge_err hw' hab]
    · intro hc
      rw [isConnected_ok hw hu hv, hs] at hc
      simp at hc
  · have n1 : g.mark u v = none := by simpa using hs
    have n2 : g.mark v u = none := by have := hw.symm_iff u v; rw [n1] at this; simpa using this.symm
    refine ⟨?_, ?_, fun _ _ _ _ => rfl, fun _ => rfl, rfl, rfl⟩
    · rw [getEdge_ok hw hu hv, edge?, n1, n2]
    · rw [getEdge_ok hw hv hu, edge?, n1, n2]

/-- **C03.** `remove_node`: the node is gone, everything else is as before. -/
theorem c03_remove_node {k : Kind} {g : Graph α} (h : Reachable k g) (u : α) :
    (u ∈ g.nodes →
      ∃ g', g.removeNode u = .ok g' ∧ u ∉ g'.nodes ∧ g'.nodes = g.nodes.filter (fun x => x ≠ u) ∧
        (∀ a b, a ≠ u → b ≠ u → g'.getEdge a b = g.getEdge a b) ∧
        (∀ a ns ns', a ≠ u → g.getNeighbours a = .ok ns → g'.getNeighbours a = .ok ns' →
          ∀ b, b ∈ ns' ↔ b ∈ ns ∧ b ≠ u) ∧ g'.kind = g.kind) ∧
    (u ∉ g.nodes → g.removeNode u = .error .assertion) := by
  obtain ⟨⟨hw, _⟩, _⟩ := h.good
  refine ⟨?_, fun hh => removeNode_err hw hh⟩
  intro hu
  obtain ⟨g', h1, hw', h3, h4, h5⟩ := removeNode_ok hw hu
  have hf : g.nodeList.erase u = g.nodeList.filter (fun x => x ≠ u) := by
    rw [hw.nodup.erase_eq_filter]
    apply List.filter_congr
    intro x _
    by_cases hx : x = u <;> simp [hx]
  have hmem : ∀ x, x ∈ g'.nodeList ↔ x ∈ g.nodeList ∧ x ≠ u := by
    intro x; rw [h4, hf]; simp
  refine ⟨g', h1, ?_, ?_, ?_, ?_, h3⟩
  · intro hh; exact ((hmem u).1 hh).2 rfl
  · show g'.nodeList = _; rw [h4, hf]; rfl
  · intro a b ha hb
    have f1 : g'.mark a b = g.mark a b := by rw [h5, if_neg (by tauto)]
    have f2 : g'.mark b a = g.mark b a := by rw [h5, if_neg (by tauto)]
    by_cases hab : a ∈ g.nodeList ∧ b ∈ g.nodeList
    · rw [getEdge_ok hw hab.1 hab.2, getEdge_ok hw' ((hmem a).2 ⟨hab.1, ha⟩) ((hmem b).2 ⟨hab.2, hb⟩), edge?, edge?, f1, f2]
    · rw [getEdge_err hw hab, getEdge_err hw' (fun c => hab ⟨((hmem a).1 c.1).1, ((hmem b).1 c.2).1⟩)]
  · intro a ns ns' ha e1 e2 b
    by_cases ha' : a ∈ g.nodeList
    · rw [getNeighbours_ok hw ha'] at e1
      rw [getNeighbours_ok hw' ((hmem a).2 ⟨ha', ha⟩)] at e2
      cases e1; cases e2
      rw [mem_nbrs, mem_nbrs, h5]
      by_cases hb : b = u
      · simp [hb]
      · rw [if_neg (by tauto)]; simp [hb]
    · rw [getNeighbours_err hw ha'] at e1; cases e1

/-- **C03.** Removing an edge just added between unconnected nodes restores every answer. -/
theorem c03_add_remove {k : Kind} {g g1 : Graph α} (h : Reachable k g) (e : Edge α) (ow : Bool)
    (hc : g.isConnected e.u e.v = .ok false) (he : g.addEdge e ow = .ok g1) :
    ∃ g2, g1.removeEdge e.u e.v = .ok g2 ∧ g2.nodes = g.nodes ∧ ∀ a b, g2.getEdge a b = g.getEdge a b := by
  obtain ⟨⟨hw, _⟩, _⟩ := h.good
  obtain ⟨⟨h1, h2, h3, h4⟩, rfl⟩ := (addEdge_ok_iff hw).1 he
  have hw1 := put_WF hw h2 h3
  rw [isConnected_ok hw h2 h3] at hc
  have n1 : g.mark e.u e.v = none := by simpa using hc
  have n2 : g.mark e.v e.u = none := by have := hw.symm_iff e.u e.v; rw [n1] at this; simpa using this.symm
  have hw2 := drop_WF hw1 (u := e.u) (v := e.v) h2 h3
  refine ⟨_, removeEdge_ok hw1 h2 h3, ?_, ?_⟩
  · split_ifs <;> rfl
  · have hs : ((g.put e).mark e.u e.v).isSome = true := by
      rw [mark_put]
      by_cases c : e.u = e.v ∧ e.v = e.u
      · rw [if_pos c]; rfl
      · rw [if_neg c, if_pos ⟨rfl, rfl⟩]; rfl
    rw [if_pos hs]
    have hm : ∀ a b, ((g.put e).drop e.u e.v).mark a b = g.mark a b := by
      intro a b
      rw [mark_drop hw1]
      split_ifs with c
      · rcases c with ⟨rfl, rfl⟩ | ⟨rfl, rfl⟩
        · exact n1.symm
        · exact n2.symm
      · rw [mark_put, if_neg (by tauto), if_neg (by tauto)]
    intro a b
    by_cases hab : a ∈ g.nodeList ∧ b ∈ g.nodeList
    · rw [getEdge_ok hw hab.1 hab.2, getEdge_ok hw2 hab.1 hab.2, edge?, edge?, hm, hm]
    · rw [getEdge_err hw hab, getEdge_err hw2 hab]

/-- **C04.** `edges` lists each connected pair of different nodes once, earlier node first, in loop order. -/
theorem c04_edges {k : Kind} {g : Graph α} (h : Reachable k g) :
    ∃ es, g.edges = .ok es ∧
      (∀ e, e ∈ es ↔ e.u ∈ g.nodes ∧ e.v ∈ g.nodes ∧ g.nodes.idxOf e.u < g.nodes.idxOf e.v ∧
        g.getEdge e.u e.v = .ok (some e)) ∧
      es.Nodup ∧
      es.Pairwise (fun e f => g.nodes.idxOf e.u < g.nodes.idxOf f.u ∨
        (g.nodes.idxOf e.u = g.nodes.idxOf f.u ∧ g.nodes.idxOf e.v < g.nodes.idxOf f.v)) ∧
      (∀ u v, u ≠ v → g.isConnected u v = .ok true → ∃ e ∈ es,
        ((e.u = u ∧ e.v = v) ∨ (e.u = v ∧ e.v = u)) ∧
          ∀ f ∈ es, ((f.u = u ∧ f.v = v) ∨ (f.u = v ∧ f.v = u)) → f = e) ∧
      g.numberOfEdges = .ok es.length ∧
      2 * es.length = ((g.nodes ×ˢ g.nodes).filter
        (fun p => p.1 ≠ p.2 ∧ g.isConnected p.1 p.2 = .ok true)).length := by
  obtain ⟨⟨hw, _⟩, _⟩ := h.good
  have hmem : ∀ e, e ∈ g.edgeList ↔ e.u ∈ g.nodes ∧ e.v ∈ g.nodes ∧ g.nodes.idxOf e.u < g.nodes.idxOf e.v ∧
        g.getEdge e.u e.v = .ok (some e) := by
    intro e
    rw [mem_edgeList hw]
    constructor
    · rintro ⟨h1, h2, h3, h4, h5⟩
      refine ⟨h1, h2, h3, ?_⟩
      rw [getEdge_ok hw h1 h2, edge?_eq_some.2 ⟨rfl, rfl, h4, h5⟩]
    · rintro ⟨h1, h2, h3, h4⟩
      rw [getEdge_ok hw h1 h2] at h4
      have := edge?_eq_some.1 (Except.ok.inj h4)
      exact ⟨h1, h2, h3, this.2.2.1, this.2.2.2⟩
  have hsort := edgeList_sorted hw
  refine ⟨_, edges_ok hw, hmem, ?_, hsort, ?_, ?_, ?_⟩
  · refine hsort.imp ?_
    rintro e f hef rfl
    unfold lexLt at hef
    omega
  · intro u v huv hc
    obtain ⟨hu, hv, hs⟩ := (isConnected_ok_iff hw _ _ _).1 hc
    have key : ∀ a b, a ∈ g.nodeList → b ∈ g.nodeList → g.nodeList.idxOf a < g.nodeList.idxOf b →
        (g.mark a b).isSome = true → ∃ e ∈ g.edgeList, (e.u = a ∧ e.v = b) ∧
          ∀ f ∈ g.edgeList, ((f.u = a ∧ f.v = b) ∨ (f.u = b ∧ f.v = a)) → f = e := by
      intro a b ha hb hab hsab
      obtain ⟨x, hx⟩ := Option.isSome_iff_exists.1 hsab
      obtain ⟨y, hy⟩ := Option.isSome_iff_exists.1 (hw.symm a b hsab)
      refine ⟨⟨a, b, y, x⟩, (mem_edgeList hw _).2 ⟨ha, hb, hab, hy, hx⟩, ⟨rfl, rfl⟩, ?_⟩
      rintro ⟨p, q, r, s⟩ hf hpq
      obtain ⟨f1, f2, f3, f4, f5⟩ := (mem_edgeList hw _).1 hf
      simp only at hpq f1 f2 f3 f4 f5
      rcases hpq with ⟨rfl, rfl⟩ | ⟨rfl, rfl⟩
      · rw [hy] at f4; rw [hx] at f5
        cases f4; cases f5; rfl
      · omega
    rcases Nat.lt_trichotomy (g.nodeList.idxOf u) (g.nodeList.idxOf v) with hlt | heq | hgt
    · obtain ⟨e, he, h1, h2⟩ := key u v hu hv hlt hs.symm
      exact ⟨e, he, Or.inl h1, h2⟩
    · exact absurd ((List.idxOf_inj hu).1 heq) huv
    · obtain ⟨e, he, h1, h2⟩ := key v u hv hu hgt (hw.symm u v hs.symm)
      exact ⟨e, he, Or.inr h1, fun f hf hh => h2 f hf hh.symm⟩
  · unfold numberOfEdges; rw [edges_ok hw]; rfl
  · rw [edgeList_length hw]
    congr 1
    apply List.filter_congr
    rintro ⟨a, b⟩ hab
    rw [List.mem_product] at hab
    rw [isConnected_ok hw hab.1 hab.2]
    simp

/-- Marks that `add_edge` of a class accepts: specification read from the docstrings of digraph.py L9-12 and
pdag.py L8-11. -/
def AcceptsMarks : Kind → Mark → Mark → Prop
  | .graph, _, _ => True
  | .digraph, a, b => a = .tail ∧ b = .arrow
  | .pdag, a, b => (a = .tail ∨ a = .arrow) ∧ (b = .tail ∨ b = .arrow)

/-- **C05.** Exact success condition of `add_edge`; otherwise an assertion error and (since the call returns no new
graph) the object is as before. -/
theorem c05_add_edge_decides {k : Kind} {g : Graph α} (h : Reachable k g) (e : Edge α) (ow : Bool) :
    ((∃ g', g.addEdge e ow = .ok g') ↔
      AcceptsMarks k e.mu e.mv ∧ e.u ∈ g.nodes ∧ e.v ∈ g.nodes ∧ (ow = true ∨ g.isConnected e.u e.v = .ok false)) ∧
    ((¬ ∃ g', g.addEdge e ow = .ok g') → g.addEdge e ow = .error .assertion) ∧
    ((¬ ∃ g', g.addEdge e ow = .ok g') → g.step (.addEdge e ow) = (g, some .assertion)) := by
  obtain ⟨⟨hw, _⟩, hk⟩ := h.good
  have hmk : AcceptsMarks k e.mu e.mv ↔ marksOk g.kind e.mu e.mv := by
    rw [hk]; unfold marksOk; cases k <;> exact Iff.rfl
  have hcn : e.u ∈ g.nodeList → e.v ∈ g.nodeList → (g.isConnected e.u e.v = .ok false ↔ g.mark e.u e.v = none) := by
    intro h1 h2
    rw [isConnected_ok hw h1 h2]
    cases g.mark e.u e.v <;> simp
  have hiff : (∃ g', g.addEdge e ow = .ok g') ↔ marksOk g.kind e.mu e.mv ∧ e.u ∈ g.nodeList ∧ e.v ∈ g.nodeList ∧
      (ow = true ∨ g.mark e.u e.v = none) := by
    constructor
    · rintro ⟨g', hg⟩; exact ((addEdge_ok_iff hw).1 hg).1
    · intro hh; exact ⟨_, (addEdge_ok_iff hw).2 ⟨hh, rfl⟩⟩
  have herr : (¬ ∃ g', g.addEdge e ow = .ok g') → g.addEdge e ow = .error .assertion :=
    fun hn => addEdge_err hw (fun hc => hn (hiff.2 hc))
  refine ⟨?_, herr, ?_⟩
  · rw [hiff, hmk]
    constructor
    · rintro ⟨a, b, c, d⟩; exact ⟨a, b, c, d.imp_right (hcn b c).2⟩
    · rintro ⟨a, b, c, d⟩; exact ⟨a, b, c, d.imp_right (hcn b c).1⟩
  · intro hn
    simp only [step]
    rw [herr hn]

/-- **C05.** `add_edges` applies a prefix of its list, one `add_edge` after the other; it is the whole list iff
nothing was raised, and otherwise the next edge is the one that `add_edge` rejects in the graph left behind. -/
theorem c05_add_edges_prefix (g : Graph α) (es : List (Edge α)) (ow : Bool) :
    ∃ pre post, es = pre ++ post ∧
      pre.foldlM (fun s e => s.addEdge e ow) g = .ok (g.addEdges es ow).1 ∧
      ((g.addEdges es ow).2 = none → post = []) ∧
      (∀ x, (g.addEdges es ow).2 = some x → ∃ e t, post = e :: t ∧ (g.addEdges es ow).1.addEdge e ow = .error x) := by
  induction es generalizing g with
  | nil => exact ⟨[], [], rfl, rfl, fun _ => rfl, by intro x hx; simp [addEdges] at hx⟩
  | cons e t ih =>
    unfold addEdges
    cases he : g.addEdge e ow with
    | ok g1 =>
      obtain ⟨pre, post, h1, h2, h3, h4⟩ := ih g1
      refine ⟨e :: pre, post, by rw [h1]; rfl, ?_, h3, h4⟩
      rw [List.foldlM_cons, he]
      exact h2
    | error x =>
      refine ⟨[], e :: t, rfl, rfl, by simp, ?_⟩
      intro y hy
      simp only [Option.some.injEq] at hy
      subst hy
      exact ⟨e, t, rfl, he⟩

/-- **C06.** Entries of `to_numpy` and its transpose. -/
theorem c06_to_numpy {k : Kind} {g : Graph α} (h : Reachable k g) :
    ∃ m, g.toNumpy = .ok m ∧ g.toNumpy true = .ok (fun r c => m c r) ∧
      ∀ (i j : Nat) (hi : i < g.nodes.length) (hj : j < g.nodes.length),
        (∀ e, g.getEdge g.nodes[i] g.nodes[j] = .ok (some e) → (e.mv = .tail → m j i = -1) ∧ (e.mv = .null → m j i = 0) ∧
          (e.mv = .arrow → m j i = 1) ∧ (e.mv = .circle → m j i = 2)) ∧
        (g.getEdge g.nodes[i] g.nodes[j] = .ok none → m j i = 0) := by
  obtain ⟨⟨hw, _⟩, hk⟩ := h.good
  obtain ⟨m, h1, h2, h3⟩ := toNumpy_ok hw
  refine ⟨m, h1, h2, ?_⟩
  intro i j hi hj
  have hmi : g.nodes[i] ∈ g.nodeList := List.getElem_mem hi
  have hmj : g.nodes[j] ∈ g.nodeList := List.getElem_mem hj
  have e1 : g.nodeList.idxOf g.nodes[i] = i := hw.nodup.idxOf_getElem i hi
  have e2 : g.nodeList.idxOf g.nodes[j] = j := hw.nodup.idxOf_getElem j hj
  have h4 := h3 _ hmi _ hmj
  rw [e1, e2] at h4
  rw [getEdge_ok hw hmi hmj]
  constructor
  · intro e he
    have := edge?_eq_some.1 (Except.ok.inj he)
    rw [h4, this.2.2.2]
    refine ⟨?_, ?_, ?_, ?_⟩ <;> rintro q <;> simp [q, Mark.toInt]
  · intro he
    have : (g.edge? g.nodes[i] g.nodes[j]).isSome = false := by rw [Except.ok.inj he]; rfl
    rw [edge?_isSome hw] at this
    rw [h4]
    cases hm : g.mark g.nodes[i] g.nodes[j] with
    | none => rfl
    | some x => rw [hm] at this; simp at this

/-- **C07.** Marks of DiGraph objects. -/
theorem c07_digraph_marks {g : Graph α} (h : ReachableSimple .digraph g) (u v : α)
    (hc : g.isConnected u v = .ok true) :
    (g.getEdge u v = .ok (some ⟨u, v, .tail, .arrow⟩) ∧ g.isFullyDirected u v = .ok true ∧
      g.isFullyDirected v u = .ok false) ∨
    (g.getEdge u v = .ok (some ⟨u, v, .arrow, .tail⟩) ∧ g.isFullyDirected u v = .ok false ∧
      g.isFullyDirected v u = .ok true) := by
  obtain ⟨⟨hw, hko⟩, hk⟩ := h.reachable.good
  have hl := h.noLoop
  obtain ⟨hu, hv, hs⟩ := (isConnected_ok_iff hw _ _ _).1 hc
  unfold KindOK at hko
  rw [hk] at hko
  have huv : u ≠ v := by rintro rfl; rw [hl u] at hs; simp at hs
  rw [getEdge_ok hw hu hv, isFullyDirected_ok hw hu hv, isFullyDirected_ok hw hv hu, edge?]
  rcases hko.1 u v huv hs.symm with ⟨a, b⟩ | ⟨a, b⟩
  · left; rw [a, b]; simp
  · right; rw [a, b]; simp

/-- **C07.** Marks of PDAG objects (self-loops included). -/
theorem c07_pdag_marks {g : Graph α} (h : Reachable .pdag g) (u v : α) (e : Edge α)
    (he : g.getEdge u v = .ok (some e)) :
    (e.mu = .tail ∨ e.mu = .arrow) ∧ (e.mv = .tail ∨ e.mv = .arrow) := by
  obtain ⟨⟨hw, hko⟩, hk⟩ := h.good
  unfold KindOK at hko
  rw [hk] at hko
  by_cases huv : u ∈ g.nodeList ∧ v ∈ g.nodeList
  · rw [getEdge_ok hw huv.1 huv.2] at he
    have := edge?_eq_some.1 (Except.ok.inj he)
    exact ⟨hko _ _ _ this.2.2.1, hko _ _ _ this.2.2.2⟩
  · rw [getEdge_err hw huv] at he; cases he

end

/-! ### Concrete non-trivial cases of the hypotheses -/

section examples

/-- A history with failing calls, a removal and an overwrite. -/
def exOps : List (Op Nat) :=
  [.addNode 4, .addEdge ⟨1, 2, .tail, .arrow⟩ false, .addEdge ⟨2, 3, .tail, .arrow⟩ false,
   .addEdge ⟨2, 1, .tail, .arrow⟩ false, .addEdges [⟨4, 3, .tail, .arrow⟩, ⟨9, 3, .tail, .arrow⟩] false,
   .removeEdge 1 2, .addEdge ⟨2, 1, .tail, .arrow⟩ false, .addNode 5, .removeNode 5]

/-- The object left by `exOps`. -/
def exG (k : Kind) : Graph Nat :=
  match Graph.init k [1, 2, 3] with
  | .ok g => g.run exOps
  | .error _ => ⟨k, [], [], []⟩

theorem exG_reachable (k : Kind) : ReachableSimple k (exG k) := by
  refine ⟨[1, 2, 3], ⟨k, [1, 2, 3], [1, 2, 3], [(1, []), (2, []), (3, [])]⟩, exOps, rfl, ?_, rfl⟩
  decide

example : (exG .digraph).nodes = [1, 2, 3, 4] ∧ (exG .digraph).isConnected 1 2 = .ok true ∧
    (exG .digraph).isConnected 1 3 = .ok false := by decide
example := c01_consistent (exG_reachable .digraph).reachable
example : ∃ g', (exG .pdag).addEdge ⟨1, 3, .tail, .tail⟩ false = .ok g' := ⟨_, rfl⟩
example : (exG .graph).isConnected 1 4 = .ok false ∧ ∃ g', (exG .graph).addEdge ⟨1, 4, .circle, .arrow⟩ false = .ok g' :=
  ⟨by decide, _, rfl⟩
example : 3 ∈ (exG .graph).nodes ∧ 2 ∈ (exG .graph).nodes := by decide
example : (exG .graph).edges = .ok [⟨1, 2, .arrow, .tail⟩, ⟨2, 3, .tail, .arrow⟩, ⟨3, 4, .arrow, .tail⟩] := by decide
example : ¬ ∃ g', (exG .digraph).addEdge ⟨1, 3, .arrow, .arrow⟩ true = .ok g' := by
  rw [(c05_add_edge_decides (exG_reachable .digraph).reachable _ _).1]; simp [AcceptsMarks]
example : ((exG .graph).addEdges [⟨1, 4, .circle, .arrow⟩, ⟨2, 3, .tail, .tail⟩, ⟨1, 3, .tail, .tail⟩]).2 =
    some .assertion := by decide
example : (exG .digraph).getEdge 3 4 = .ok (some ⟨3, 4, .arrow, .tail⟩) := by decide
example : (exG .digraph).isConnected 3 4 = .ok true := by decide
example : (exG .pdag).getEdge 2 1 = .ok (some ⟨2, 1, .tail, .arrow⟩) := by decide

end examples
end Cdmir
