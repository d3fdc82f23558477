import Verif.Props.GraphCore

/-! Properties C45 (adding and removing lists of nodes) and C46 (the mark queries agree with `get_edge`). -/

namespace Cdmir
open Graph

section
variable {α : Type} [DecidableEq α]

theorem addNode_getEdge {g : Graph α} (hw : g.WF) (u a b : α) (ha : a ∈ g.nodes) (hb : b ∈ g.nodes) :
    (g.addNode u).getEdge a b = g.getEdge a b := by
  have hw' := addNode_WF hw u
  have hm : ∀ x, x ∈ g.nodeList → x ∈ (g.addNode u).nodeList := by
    intro x hx
    rw [nodeList_addNode hw]; split_ifs
    · exact hx
    · exact List.mem_append_left _ hx
  rw [getEdge_ok hw ha hb, getEdge_ok hw' (hm a ha) (hm b hb), edge?, edge?, mark_addNode hw, mark_addNode hw]

/-- **C45.** `add_nodes` appends exactly the new nodes, once each, in the order of their first occurrence; they are isolated
and the edges between the old nodes are untouched. (`add_node(u)` is the case of one node.) -/
theorem c45_add_nodes {k : Kind} {g : Graph α} (h : Reachable k g) (us : List α) :
    g.addNode = (fun u => g.addNodes [u]) ∧
    ∃ new, (g.addNodes us).nodes = g.nodes ++ new ∧ new.Nodup ∧ (∀ u, u ∈ new ↔ u ∈ us ∧ u ∉ g.nodes) ∧
      new.Pairwise (fun a b => us.idxOf a < us.idxOf b) ∧ (new = [] → g.addNodes us = g) ∧
      (∀ a ∈ g.nodes, ∀ b ∈ g.nodes, (g.addNodes us).getEdge a b = g.getEdge a b) ∧
      (∀ a ∈ new, (g.addNodes us).getNeighbours a = .ok []) ∧ (g.addNodes us).kind = g.kind := by
  refine ⟨rfl, ?_⟩
  obtain ⟨⟨hw, _⟩, _⟩ := h.good
  clear h
  have main : ∀ (us : List α) (g : Graph α), g.WF → ∃ new, (g.addNodes us).nodeList = g.nodeList ++ new ∧ new.Nodup ∧
      (∀ u, u ∈ new ↔ u ∈ us ∧ u ∉ g.nodeList) ∧ new.Pairwise (fun a b => us.idxOf a < us.idxOf b) ∧
      (new = [] → g.addNodes us = g) ∧ (g.addNodes us).WF ∧ (∀ a b, (g.addNodes us).mark a b = g.mark a b) ∧
      (g.addNodes us).kind = g.kind := by
    intro us
    induction us with
    | nil => exact fun g hw => ⟨[], by simp [addNodes], by simp, by simp, by simp, fun _ => rfl, hw, fun _ _ => rfl, rfl⟩
    | cons u t ih =>
      intro g hw
      have e : g.addNodes (u :: t) = (g.addNode u).addNodes t := rfl
      obtain ⟨new, h1, h2, h3, h4, h5, h6, h7, h8⟩ := ih (g.addNode u) (addNode_WF hw u)
      rw [e]
      by_cases hu : u ∈ g.nodeList
      · have hg : g.addNode u = g := by unfold addNode; rw [if_pos ((hw.mem_set u).2 hu)]
        rw [hg] at h1 h3 h5 h6 h7 h8 ⊢
        have hne : ∀ a ∈ new, u ≠ a := by rintro a ha rfl; exact ((h3 u).1 ha).2 hu
        refine ⟨new, h1, h2, fun x => ?_, ?_, h5, h6, h7, h8⟩
        · rw [h3]
          constructor
          · rintro ⟨p, q⟩; exact ⟨by simp [p], q⟩
          · rintro ⟨p, q⟩
            rcases List.mem_cons.1 p with rfl | p
            · exact absurd hu q
            · exact ⟨p, q⟩
        · refine h4.imp_of_mem (fun {a b} ha hb hab => ?_)
          rw [List.idxOf_cons_ne _ (hne a ha), List.idxOf_cons_ne _ (hne b hb)]
          omega
      · have hl : (g.addNode u).nodeList = g.nodeList ++ [u] := by rw [nodeList_addNode hw, if_neg hu]
        rw [hl] at h1 h3
        have hun : u ∉ new := fun hh => ((h3 u).1 hh).2 (by simp)
        refine ⟨u :: new, by rw [h1]; simp, List.nodup_cons.2 ⟨hun, h2⟩, fun x => ?_, ?_, by simp, h6, fun a b => ?_, ?_⟩
        · by_cases hx : x = u
          · subst hx; simp [hu]
          · simp [h3, hx]
        · refine List.pairwise_cons.2 ⟨fun b hb => ?_, ?_⟩
          · rw [List.idxOf_cons_self, List.idxOf_cons_ne _ (by rintro rfl; exact hun hb)]; omega
          · refine h4.imp_of_mem (fun {a b} ha hb hab => ?_)
            rw [List.idxOf_cons_ne _ (by rintro rfl; exact hun ha), List.idxOf_cons_ne _ (by rintro rfl; exact hun hb)]
            omega
        · rw [h7, mark_addNode hw]
        · rw [h8]; exact addNode_kind g u
  obtain ⟨new, h1, h2, h3, h4, h5, h6, h7, h8⟩ := main us g hw
  have hsub : ∀ x, x ∈ g.nodeList → x ∈ (g.addNodes us).nodeList := by
    intro x hx; rw [h1]; exact List.mem_append_left _ hx
  refine ⟨new, h1, h2, h3, h4, h5, ?_, ?_, h8⟩
  · intro a ha b hb
    rw [getEdge_ok hw ha hb, getEdge_ok h6 (hsub a ha) (hsub b hb), edge?, edge?, h7, h7]
  · intro a ha
    have ha' : a ∈ (g.addNodes us).nodeList := by rw [h1]; exact List.mem_append_right _ ha
    rw [getNeighbours_ok h6 ha']
    congr 1
    rw [List.eq_nil_iff_forall_not_mem]
    intro b hb
    rw [mem_nbrs, h7] at hb
    exact ((h3 a).1 ha).2 (hw.mark_left hb)

/-- **C45.** `remove_nodes_from` removes the longest prefix of the list that consists of different existing nodes, and
raises at the first node that is missing or was already removed. -/
theorem c45_remove_nodes {k : Kind} {g : Graph α} (h : Reachable k g) (us : List α) :
    ∃ pre post, us = pre ++ post ∧ pre.Nodup ∧ (∀ u ∈ pre, u ∈ g.nodes) ∧
      (g.removeNodesFrom us).1.nodes = g.nodes.filter (fun x => x ∉ pre) ∧
      (∀ a b, a ∉ pre → b ∉ pre → (g.removeNodesFrom us).1.getEdge a b = g.getEdge a b) ∧
      (g.removeNodesFrom us).1.kind = g.kind ∧
      ((post = [] ∧ (g.removeNodesFrom us).2 = none) ∨
        ∃ u t, post = u :: t ∧ (u ∉ g.nodes ∨ u ∈ pre) ∧ (g.removeNodesFrom us).2 = some .assertion) := by
  have hw := h.good.1.wf
  clear h
  induction us generalizing g with
  | nil =>
    refine ⟨[], [], rfl, by simp, by simp, ?_, fun _ _ _ _ => rfl, rfl, Or.inl ⟨rfl, rfl⟩⟩
    simp [removeNodesFrom]
  | cons u t ih =>
    by_cases hu : u ∈ g.nodeList
    · obtain ⟨g', e1, hw', e3, e4, e5⟩ := removeNode_ok hw hu
      have er : g.removeNodesFrom (u :: t) = g'.removeNodesFrom t := by simp only [removeNodesFrom, e1]
      have hmem : ∀ x, x ∈ g'.nodeList ↔ x ∈ g.nodeList ∧ x ≠ u := by
        intro x; rw [e4, hw.nodup.mem_erase_iff]; tauto
      obtain ⟨pre, post, q1, q2, q3, q4, q5, q6, q7⟩ := ih hw'
      have hup : u ∉ pre := fun hh => ((hmem u).1 (q3 u hh)).2 rfl
      rw [er]
      refine ⟨u :: pre, post, by rw [q1]; rfl, List.nodup_cons.2 ⟨hup, q2⟩, ?_, ?_, ?_, q6.trans e3, ?_⟩
      · intro x hx
        rcases List.mem_cons.1 hx with rfl | hx
        · exact hu
        · exact ((hmem x).1 (q3 x hx)).1
      · rw [q4]
        show g'.nodeList.filter _ = g.nodeList.filter _
        rw [e4, hw.nodup.erase_eq_filter, List.filter_filter]
        apply List.filter_congr
        intro x _
        by_cases hx : x = u <;> simp [hx]
      · intro a b ha hb
        simp only [List.mem_cons, not_or] at ha hb
        rw [q5 a b ha.2 hb.2]
        by_cases hab : a ∈ g.nodeList ∧ b ∈ g.nodeList
        · rw [getEdge_ok hw hab.1 hab.2, getEdge_ok hw' ((hmem a).2 ⟨hab.1, ha.1⟩) ((hmem b).2 ⟨hab.2, hb.1⟩), edge?, edge?,
            e5, e5, if_neg (by tauto), if_neg (by tauto)]
        · rw [getEdge_err hw hab, getEdge_err hw' (fun c => hab ⟨((hmem a).1 c.1).1, ((hmem b).1 c.2).1⟩)]
      · rcases q7 with q7 | ⟨x, s, p1, p2, p3⟩
        · exact Or.inl q7
        · refine Or.inr ⟨x, s, p1, ?_, p3⟩
          rcases p2 with p2 | p2
          · by_cases hx : x = u
            · exact Or.inr (by simp [hx])
            · exact Or.inl (fun c => p2 ((hmem x).2 ⟨c, hx⟩))
          · exact Or.inr (by simp [p2])
    · have er : g.removeNodesFrom (u :: t) = (g, some .assertion) := by simp only [removeNodesFrom, removeNode_err hw hu]
      rw [er]
      refine ⟨[], u :: t, rfl, by simp, by simp, ?_, fun _ _ _ _ => rfl, rfl, Or.inr ⟨u, t, rfl, Or.inl hu, rfl⟩⟩
      simp

/-- **C46.** All queries about a pair answer what `get_edge` shows: `is_arrow(u, v)`, `is_tail(u, v)`, `is_circle(u, v)`
read the mark at `v`, and all of them raise together. -/
theorem c46_mark_queries {k : Kind} {g : Graph α} (h : Reachable k g) (u v : α) :
    (∀ e, g.getEdge u v = .ok (some e) →
      e.u = u ∧ e.v = v ∧ g.isConnected u v = .ok true ∧ g.isArrow u v = .ok (decide (e.mv = .arrow)) ∧
      g.isTail u v = .ok (decide (e.mv = .tail)) ∧ g.isCircle u v = .ok (decide (e.mv = .circle)) ∧
      g.isFullyDirected u v = .ok (decide (e.mu = .tail ∧ e.mv = .arrow)) ∧
      g.isFullyUndirected u v = .ok (decide (e.mu = .tail ∧ e.mv = .tail))) ∧
    (g.getEdge u v = .ok none → g.isConnected u v = .ok false ∧ g.isArrow u v = .ok false ∧ g.isTail u v = .ok false ∧
      g.isCircle u v = .ok false ∧ g.isFullyDirected u v = .ok false ∧ g.isFullyUndirected u v = .ok false) ∧
    (∀ x, g.getEdge u v = .error x → x = .assertion ∧ g.isConnected u v = .error x ∧ g.isArrow u v = .error x ∧
      g.isTail u v = .error x ∧ g.isCircle u v = .error x ∧ g.isFullyDirected u v = .error x ∧
      g.isFullyUndirected u v = .error x) := by
  obtain ⟨⟨hw, _⟩, _⟩ := h.good
  by_cases huv : u ∈ g.nodeList ∧ v ∈ g.nodeList
  · rw [getEdge_ok hw huv.1 huv.2, isConnected_ok hw huv.1 huv.2, isFullyDirected_ok hw huv.1 huv.2,
      isFullyUndirected_ok hw huv.1 huv.2, isArrow, isTail, isCircle, hasMark_ok hw _ huv.1 huv.2, hasMark_ok hw _ huv.1 huv.2,
      hasMark_ok hw _ huv.1 huv.2]
    refine ⟨fun e he => ?_, fun he => ?_, fun x hx => by cases hx⟩
    · have := edge?_eq_some.1 (Except.ok.inj he)
      obtain ⟨h1, h2, h3, h4⟩ := this
      rw [h3, h4]
      exact ⟨h1, h2, by simp, by simp, by simp, by simp, by simp, by simp⟩
    · have : (g.edge? u v).isSome = false := by rw [Except.ok.inj he]; rfl
      rw [edge?_isSome hw] at this
      have hn : g.mark u v = none := by simpa using this
      simp [hn]
  · have e1 := isConnected_err hw huv
    refine ⟨fun e he => ?_, fun he => ?_, fun x hx => ?_⟩
    · rw [getEdge_err hw huv] at he; cases he
    · rw [getEdge_err hw huv] at he; cases he
    · rw [getEdge_err hw huv] at hx
      cases hx
      refine ⟨rfl, e1, hasMark_err hw _ huv, hasMark_err hw _ huv, hasMark_err hw _ huv, ?_, ?_⟩
      · unfold isFullyDirected; rw [e1]; rfl
      · unfold isFullyUndirected; rw [e1]; rfl

end

section examples

/-- A plain graph with a circle mark, an isolated node and a chain. -/
def exMore : Graph Nat := (Graph.mk .graph [] [] []).run
  [.addNodes [1, 2, 3, 4], .addEdge ⟨1, 2, .circle, .arrow⟩ false, .addEdge ⟨2, 3, .tail, .tail⟩ false]

theorem exMore_reachable : Reachable .graph exMore := ⟨[], _, _, rfl, rfl⟩

example := c45_add_nodes exMore_reachable [3, 7, 5, 7]
example : (exMore.addNodes [3, 7, 5, 7]).nodes = [1, 2, 3, 4, 7, 5] := by decide
example := c45_remove_nodes exMore_reachable [2, 4, 2, 1]
example : (exMore.removeNodesFrom [2, 4, 2, 1]).1.nodes = [1, 3] ∧ (exMore.removeNodesFrom [2, 4, 2, 1]).2 = some .assertion := by
  decide
example := c46_mark_queries exMore_reachable 2 1
example : exMore.getEdge 2 1 = .ok (some ⟨2, 1, .arrow, .circle⟩) ∧ exMore.isCircle 2 1 = .ok true := by decide

end examples
end Cdmir
