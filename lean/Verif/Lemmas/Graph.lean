import Verif.Model.Graph
import Verif.Lemmas.Dict

/-! Representation invariant of the graph model and the effect of each operation on the abstract view `mark`. -/

namespace Cdmir
namespace Graph
variable {α : Type} [DecidableEq α]

/-- Abstract view of a graph: the mark stored at `v` on the edge between `u` and `v` (`_adj[u][v]`, graph.py L58). -/
def mark (g : Graph α) (u v : α) : Option Mark := (dget g.adj u).bind (fun a => dget a v)

/-- Representation invariant of graph.py's `Graph` (L12-26): proof device, shown to hold for every reachable object. -/
structure WF (g : Graph α) : Prop where
  nodup : g.nodeList.Nodup
  setNodup : g.nodeSet.Nodup
  mem_set : ∀ u, u ∈ g.nodeSet ↔ u ∈ g.nodeList
  keys : ∀ u, (dget g.adj u).isSome ↔ u ∈ g.nodeList
  outer : (dkeys g.adj).Nodup
  inner : ∀ u a, dget g.adj u = some a → (dkeys a).Nodup
  symm : ∀ u v, (g.mark u v).isSome → (g.mark v u).isSome

/-- Neighbours without the `KeyError` branch (graph.py L115-117): proof device. -/
def nbrs (g : Graph α) (u : α) : List α := dkeys ((dget g.adj u).getD [])

/-- The store of `add_edge` (graph.py L58-59) without its error branches: proof device. -/
def put (g : Graph α) (e : Edge α) : Graph α :=
  let adj1 := dset g.adj e.u (dset ((dget g.adj e.u).getD []) e.v e.mv)
  { g with adj := dset adj1 e.v (dset ((dget adj1 e.v).getD []) e.u e.mu) }

/-- The removal of `remove_edge` (graph.py L103-104) without its error branches: proof device. -/
def drop (g : Graph α) (u v : α) : Graph α :=
  let adj1 := dset g.adj u (ddel ((dget g.adj u).getD []) v)
  { g with adj := dset adj1 v (ddel ((dget adj1 v).getD []) u) }

section wf
variable {g : Graph α}

theorem WF.adj_some (h : g.WF) {u : α} (hu : u ∈ g.nodeList) : ∃ a, dget g.adj u = some a :=
  Option.isSome_iff_exists.1 ((h.keys u).2 hu)

theorem WF.mark_left (h : g.WF) {u v : α} (hm : (g.mark u v).isSome) : u ∈ g.nodeList := by
  rw [← h.keys]
  unfold mark at hm
  cases hd : dget g.adj u with
  | none => simp [hd] at hm
  | some a => simp

theorem WF.mark_right (h : g.WF) {u v : α} (hm : (g.mark u v).isSome) : v ∈ g.nodeList := h.mark_left (h.symm u v hm)

theorem WF.symm_iff (h : g.WF) (u v : α) : (g.mark u v).isSome = (g.mark v u).isSome := by
  rw [Bool.eq_iff_iff]; exact ⟨h.symm u v, h.symm v u⟩

theorem checkMissingNode_ok (h : g.WF) {u : α} (hu : u ∈ g.nodeList) : g.checkMissingNode u = .ok () := by
  unfold checkMissingNode; rw [if_pos ((h.mem_set u).2 hu)]

theorem checkMissingNode_err (h : g.WF) {u : α} (hu : u ∉ g.nodeList) : g.checkMissingNode u = .error .assertion := by
  unfold checkMissingNode; rw [if_neg (fun hh => hu ((h.mem_set u).1 hh))]

theorem isConnected_ok (h : g.WF) {u v : α} (hu : u ∈ g.nodeList) (hv : v ∈ g.nodeList) :
    g.isConnected u v = .ok (g.mark u v).isSome := by
  obtain ⟨au, hau⟩ := h.adj_some hu
  obtain ⟨av, hav⟩ := h.adj_some hv
  have e1 : g.mark u v = dget au v := by simp [mark, hau]
  have e2 : g.mark v u = dget av u := by simp [mark, hav]
  unfold isConnected
  rw [checkMissingNode_ok h hu, checkMissingNode_ok h hv, dgetE_of _ _ _ hau, dgetE_of _ _ _ hav]
  have hs := h.symm_iff u v
  rw [e1, e2] at hs
  simp only [bind, Except.bind, pure, Except.pure, e1]
  by_cases hh : (dget au v).isSome = true
  · have h2 : (dget av u).isSome = true := by rw [← hs]; exact hh
    simp [dhas, hh, h2]
  · simp [dhas, hh]

theorem isConnected_err (h : g.WF) {u v : α} (huv : ¬ (u ∈ g.nodeList ∧ v ∈ g.nodeList)) :
    g.isConnected u v = .error .assertion := by
  unfold isConnected
  by_cases hu : u ∈ g.nodeList
  · have hv : v ∉ g.nodeList := fun hv => huv ⟨hu, hv⟩
    rw [checkMissingNode_ok h hu, checkMissingNode_err h hv]; rfl
  · rw [checkMissingNode_err h hu]; rfl

theorem isConnected_ok_iff (h : g.WF) (u v : α) (b : Bool) :
    g.isConnected u v = .ok b ↔ u ∈ g.nodeList ∧ v ∈ g.nodeList ∧ b = (g.mark u v).isSome := by
  by_cases huv : u ∈ g.nodeList ∧ v ∈ g.nodeList
  · rw [isConnected_ok h huv.1 huv.2]
    simp [huv, eq_comm]
  · rw [isConnected_err h huv]
    simp only [reduceCtorEq, false_iff]
    exact fun hh => huv ⟨hh.1, hh.2.1⟩

theorem hasMark_ok (h : g.WF) (m : Mark) {u v : α} (hu : u ∈ g.nodeList) (hv : v ∈ g.nodeList) :
    g.hasMark m u v = .ok (decide (g.mark u v = some m)) := by
  obtain ⟨au, hau⟩ := h.adj_some hu
  have e1 : g.mark u v = dget au v := by simp [mark, hau]
  unfold hasMark
  rw [isConnected_ok h hu hv, dgetE_of _ _ _ hau, e1]
  simp only [bind, Except.bind, pure, Except.pure]
  cases hx : dget au v with
  | none => simp
  | some x => simp [dgetE_of _ _ _ hx]

theorem hasMark_err (h : g.WF) (m : Mark) {u v : α} (huv : ¬ (u ∈ g.nodeList ∧ v ∈ g.nodeList)) :
    g.hasMark m u v = .error .assertion := by
  unfold hasMark; rw [isConnected_err h huv]; rfl

theorem isFullyDirected_ok (h : g.WF) {u v : α} (hu : u ∈ g.nodeList) (hv : v ∈ g.nodeList) :
    g.isFullyDirected u v = .ok (decide (g.mark v u = some .tail ∧ g.mark u v = some .arrow)) := by
  unfold isFullyDirected isTail isArrow
  rw [isConnected_ok h hu hv, hasMark_ok h _ hv hu, hasMark_ok h _ hu hv]
  simp only [bind, Except.bind, pure, Except.pure]
  by_cases h1 : g.mark v u = some .tail <;> by_cases h2 : g.mark u v = some .arrow <;> simp [h1, h2]

theorem isFullyUndirected_ok (h : g.WF) {u v : α} (hu : u ∈ g.nodeList) (hv : v ∈ g.nodeList) :
    g.isFullyUndirected u v = .ok (decide (g.mark v u = some .tail ∧ g.mark u v = some .tail)) := by
  unfold isFullyUndirected isTail
  rw [isConnected_ok h hu hv, hasMark_ok h _ hv hu, hasMark_ok h _ hu hv]
  simp only [bind, Except.bind, pure, Except.pure]
  by_cases h1 : g.mark v u = some .tail <;> by_cases h2 : g.mark u v = some .tail <;> simp [h1, h2]

/-- Pure form of `get_edge` (graph.py L65-68): proof device. -/
def edge? (g : Graph α) (u v : α) : Option (Edge α) :=
  match g.mark v u, g.mark u v with
  | some a, some b => some ⟨u, v, a, b⟩
  | _, _ => none

theorem getEdge_ok (h : g.WF) {u v : α} (hu : u ∈ g.nodeList) (hv : v ∈ g.nodeList) :
    g.getEdge u v = .ok (g.edge? u v) := by
  obtain ⟨au, hau⟩ := h.adj_some hu
  obtain ⟨av, hav⟩ := h.adj_some hv
  have e1 : g.mark u v = dget au v := by simp [mark, hau]
  have e2 : g.mark v u = dget av u := by simp [mark, hav]
  have hs := h.symm_iff u v
  unfold getEdge edge?
  rw [isConnected_ok h hu hv, dgetE_of _ _ _ hau, dgetE_of _ _ _ hav]
  rw [e1, e2] at hs ⊢
  simp only [bind, Except.bind, pure, Except.pure]
  cases hx : dget au v with
  | none => cases hy : dget av u <;> simp
  | some x =>
    rw [hx] at hs
    cases hy : dget av u with
    | none => rw [hy] at hs; simp at hs
    | some y => simp [dgetE_of _ _ _ hx, dgetE_of _ _ _ hy]

theorem getEdge_err (h : g.WF) {u v : α} (huv : ¬ (u ∈ g.nodeList ∧ v ∈ g.nodeList)) :
    g.getEdge u v = .error .assertion := by
  unfold getEdge; rw [isConnected_err h huv]; rfl

theorem edge?_isSome (h : g.WF) (u v : α) : (g.edge? u v).isSome = (g.mark u v).isSome := by
  have hs := h.symm_iff u v
  unfold edge?
  cases hx : g.mark u v <;> cases hy : g.mark v u <;> simp_all

theorem getNeighbours_ok (h : g.WF) {u : α} (hu : u ∈ g.nodeList) : g.getNeighbours u = .ok (g.nbrs u) := by
  obtain ⟨au, hau⟩ := h.adj_some hu
  unfold getNeighbours nbrs
  rw [dgetE_of _ _ _ hau]
  simp [hau, bind, Except.bind, pure, Except.pure]

theorem getNeighbours_err (h : g.WF) {u : α} (hu : u ∉ g.nodeList) : g.getNeighbours u = .error .key := by
  have : dget g.adj u = none := by
    cases hd : dget g.adj u with
    | none => rfl
    | some a => exact absurd ((h.keys u).1 (by simp [hd])) hu
  unfold getNeighbours dgetE
  rw [this]; rfl

theorem mem_nbrs (g : Graph α) (u v : α) : v ∈ g.nbrs u ↔ (g.mark u v).isSome := by
  unfold nbrs mark
  rw [mem_dkeys_iff]
  cases hd : dget g.adj u <;> simp

theorem nbrs_nodup (h : g.WF) (u : α) : (g.nbrs u).Nodup := by
  unfold nbrs
  cases hd : dget g.adj u with
  | none => simp [dkeys]
  | some a => exact h.inner u a hd

/-! ### storing -/

theorem storeEdge_ok (h : g.WF) {e : Edge α} (hu : e.u ∈ g.nodeList) (hv : e.v ∈ g.nodeList) :
    g.storeEdge e = .ok (g.put e) := by
  obtain ⟨au, hau⟩ := h.adj_some hu
  obtain ⟨av, hav⟩ := h.adj_some hv
  unfold storeEdge put
  rw [dgetE_of _ _ _ hau]
  have : ∃ x, dget (dset g.adj e.u (dset au e.v e.mv)) e.v = some x := by
    rw [dget_dset]; split_ifs
    · exact ⟨_, rfl⟩
    · exact ⟨_, hav⟩
  obtain ⟨x, hx⟩ := this
  simp only [hau, Option.getD_some, bind, Except.bind, pure, Except.pure, dgetE_of _ _ _ hx]
  simp [hx]

@[simp] theorem put_nodeList (g : Graph α) (e : Edge α) : (g.put e).nodeList = g.nodeList := rfl
@[simp] theorem put_nodeSet (g : Graph α) (e : Edge α) : (g.put e).nodeSet = g.nodeSet := rfl
@[simp] theorem put_kind (g : Graph α) (e : Edge α) : (g.put e).kind = g.kind := rfl
@[simp] theorem drop_nodeList (g : Graph α) (u v : α) : (g.drop u v).nodeList = g.nodeList := rfl
@[simp] theorem drop_nodeSet (g : Graph α) (u v : α) : (g.drop u v).nodeSet = g.nodeSet := rfl
@[simp] theorem drop_kind (g : Graph α) (u v : α) : (g.drop u v).kind = g.kind := rfl

theorem mark_put (g : Graph α) (e : Edge α) (a b : α) :
    (g.put e).mark a b =
      if a = e.v ∧ b = e.u then some e.mu else if a = e.u ∧ b = e.v then some e.mv else g.mark a b := by
  unfold put mark
  simp only [dget_dset]
  by_cases h1 : e.v = a
  · subst h1
    by_cases h2 : e.u = b
    · subst h2; simp [dget_dset]
    · have h2' : ¬ b = e.u := fun h => h2 h.symm
      by_cases h3 : e.u = e.v
      · have : ¬ e.v = b := fun h => h2 (h3.trans h)
        have h4 : ¬ b = e.v := fun h => this h.symm
        simp only [↓reduceIte, h3, Option.bind_some, dget_dset, Option.getD_some, this, h4, and_false]
        cases hd : dget g.adj e.v <;> simp
      · have h3' : ¬ e.v = e.u := fun h => h3 h.symm
        simp only [↓reduceIte, h3, Option.bind_some, dget_dset, h2, h2', h3', false_and, and_false]
        cases hd : dget g.adj e.v <;> simp
  · have h1' : ¬ a = e.v := fun h => h1 h.symm
    simp only [h1, h1', false_and, ↓reduceIte]
    by_cases h2 : e.u = a
    · subst h2
      by_cases h3 : e.v = b
      · subst h3; simp [dget_dset]
      · have h3' : ¬ b = e.v := fun h => h3 h.symm
        simp only [↓reduceIte, Option.bind_some, dget_dset, h3, h3', and_false]
        cases hd : dget g.adj e.u <;> simp
    · have h2' : ¬ a = e.u := fun h => h2 h.symm
      simp [h2, h2']

theorem put_WF (h : g.WF) {e : Edge α} (hu : e.u ∈ g.nodeList) (hv : e.v ∈ g.nodeList) : (g.put e).WF := by
  obtain ⟨au, hau⟩ := h.adj_some hu
  obtain ⟨av, hav⟩ := h.adj_some hv
  have hadj1 : ∀ x a, dget (dset g.adj e.u (dset ((dget g.adj e.u).getD []) e.v e.mv)) x = some a → (dkeys a).Nodup := by
    intro x a ha
    rw [dget_dset] at ha
    split_ifs at ha
    · simp only [Option.some.injEq] at ha
      subst ha
      apply dkeys_dset_nodup
      simp only [hau, Option.getD_some]
      exact h.inner _ _ hau
    · exact h.inner _ _ ha
  refine ⟨h.nodup, h.setNodup, h.mem_set, ?_, ?_, ?_, ?_⟩
  · intro x
    simp only [put_nodeList]
    rw [← h.keys]
    unfold put
    simp only [dget_dset]
    by_cases h1 : e.v = x
    · subst h1; simp [hav]
    · by_cases h2 : e.u = x
      · subst h2; simp [hau, h1]
      · simp [h1, h2]
  · unfold put
    exact dkeys_dset_nodup _ _ _ (dkeys_dset_nodup _ _ _ h.outer)
  · intro x a ha
    unfold put at ha
    simp only at ha
    rw [dget_dset] at ha
    split_ifs at ha
    · simp only [Option.some.injEq] at ha
      subst ha
      apply dkeys_dset_nodup
      cases hd : dget (dset g.adj e.u (dset ((dget g.adj e.u).getD []) e.v e.mv)) e.v with
      | none => simp [dkeys]
      | some y => exact hadj1 _ _ hd
    · exact hadj1 _ _ ha
  · intro a b
    rw [mark_put, mark_put]
    by_cases c1 : a = e.v ∧ b = e.u
    · rw [if_pos c1]
      intro _
      by_cases c2 : b = e.v ∧ a = e.u
      · rw [if_pos c2]; rfl
      · rw [if_neg c2, if_pos ⟨c1.2, c1.1⟩]; rfl
    · rw [if_neg c1]
      by_cases c2 : a = e.u ∧ b = e.v
      · rw [if_pos c2, if_pos ⟨c2.2, c2.1⟩]; intro _; rfl
      · rw [if_neg c2, if_neg (fun c => c2 ⟨c.2, c.1⟩), if_neg (fun c => c1 ⟨c.2, c.1⟩)]
        exact h.symm a b

/-! ### removing an edge -/

theorem mark_drop (h : g.WF) (u v a b : α) :
    (g.drop u v).mark a b = if (a = u ∧ b = v) ∨ (a = v ∧ b = u) then none else g.mark a b := by
  have hin : ∀ x, (dkeys ((dget g.adj x).getD [])).Nodup := by
    intro x
    cases hd : dget g.adj x with
    | none => simp [dkeys]
    | some y => exact h.inner _ _ hd
  unfold drop mark
  simp only [dget_dset]
  by_cases h1 : v = a
  · subst h1
    by_cases h3 : u = v
    · subst h3
      simp only [↓reduceIte, Option.bind_some, Option.getD_some, true_and, or_self]
      rw [dget_ddel _ _ _ (dkeys_ddel_nodup _ _ (hin u)), dget_ddel _ _ _ (hin u)]
      by_cases h2 : u = b
      · subst h2; simp
      · have h2' : ¬ b = u := fun h => h2 h.symm
        simp only [h2, h2', ↓reduceIte]
        cases hd : dget g.adj u <;> simp
    · have h3' : ¬ v = u := fun h => h3 h.symm
      simp only [↓reduceIte, h3, h3', Option.bind_some, false_and, false_or, true_and]
      rw [dget_ddel _ _ _ (hin v)]
      by_cases h2 : u = b
      · subst h2; simp
      · have h2' : ¬ b = u := fun h => h2 h.symm
        simp only [h2, h2', ↓reduceIte]
        cases hd : dget g.adj v <;> simp
  · have h1' : ¬ a = v := fun h => h1 h.symm
    simp only [h1, h1', false_and, or_false, ↓reduceIte]
    by_cases h2 : u = a
    · subst h2
      simp only [↓reduceIte, Option.bind_some, true_and]
      rw [dget_ddel _ _ _ (hin u)]
      by_cases h3 : v = b
      · subst h3; simp
      · have h3' : ¬ b = v := fun h => h3 h.symm
        simp only [h3, h3', ↓reduceIte]
        cases hd : dget g.adj u <;> simp
    · have h2' : ¬ a = u := fun h => h2 h.symm
      simp [h2, h2']

theorem drop_WF (h : g.WF) {u v : α} (hu : u ∈ g.nodeList) (hv : v ∈ g.nodeList) : (g.drop u v).WF := by
  obtain ⟨au, hau⟩ := h.adj_some hu
  obtain ⟨av, hav⟩ := h.adj_some hv
  have hadj1 : ∀ x a, dget (dset g.adj u (ddel ((dget g.adj u).getD []) v)) x = some a → (dkeys a).Nodup := by
    intro x a ha
    rw [dget_dset] at ha
    split_ifs at ha
    · simp only [Option.some.injEq] at ha
      subst ha
      apply dkeys_ddel_nodup
      simp only [hau, Option.getD_some]
      exact h.inner _ _ hau
    · exact h.inner _ _ ha
  refine ⟨h.nodup, h.setNodup, h.mem_set, ?_, ?_, ?_, ?_⟩
  · intro x
    simp only [drop_nodeList]
    rw [← h.keys]
    unfold drop
    simp only [dget_dset]
    by_cases h1 : v = x
    · subst h1; simp [hav]
    · by_cases h2 : u = x
      · subst h2; simp [hau, h1]
      · simp [h1, h2]
  · unfold drop
    exact dkeys_dset_nodup _ _ _ (dkeys_dset_nodup _ _ _ h.outer)
  · intro x a ha
    unfold drop at ha
    simp only at ha
    rw [dget_dset] at ha
    split_ifs at ha
    · simp only [Option.some.injEq] at ha
      subst ha
      apply dkeys_ddel_nodup
      cases hd : dget (dset g.adj u (ddel ((dget g.adj u).getD []) v)) v with
      | none => simp [dkeys]
      | some y => exact hadj1 _ _ hd
    · exact hadj1 _ _ ha
  · intro a b
    rw [mark_drop h, mark_drop h]
    by_cases c1 : (a = u ∧ b = v) ∨ (a = v ∧ b = u)
    · rw [if_pos c1]; intro hh; simp at hh
    · have c2 : ¬ ((b = u ∧ a = v) ∨ (b = v ∧ a = u)) := by tauto
      rw [if_neg c1, if_neg c2]
      exact h.symm a b

theorem removeEdge_ok (h : g.WF) {u v : α} (hu : u ∈ g.nodeList) (hv : v ∈ g.nodeList) :
    g.removeEdge u v = .ok (if (g.mark u v).isSome then g.drop u v else g) := by
  obtain ⟨au, hau⟩ := h.adj_some hu
  obtain ⟨av, hav⟩ := h.adj_some hv
  unfold removeEdge drop
  rw [isConnected_ok h hu hv, dgetE_of _ _ _ hau]
  have : ∃ x, dget (dset g.adj u (ddel au v)) v = some x := by
    rw [dget_dset]; split_ifs
    · exact ⟨_, rfl⟩
    · exact ⟨_, hav⟩
  obtain ⟨x, hx⟩ := this
  simp only [hau, Option.getD_some, bind, Except.bind, pure, Except.pure, dgetE_of _ _ _ hx]
  cases (g.mark u v).isSome <;> simp [hx]

theorem removeEdge_err (h : g.WF) {u v : α} (huv : ¬ (u ∈ g.nodeList ∧ v ∈ g.nodeList)) :
    g.removeEdge u v = .error .assertion := by
  unfold removeEdge; rw [isConnected_err h huv]; rfl

/-! ### adding an edge -/

/-- Marks accepted by `add_edge` of each class (graph.py L48, digraph.py L10-11, pdag.py L9-10): proof device. -/
def marksOk (k : Kind) (mu mv : Mark) : Prop :=
  match k with
  | .graph => True
  | .digraph => mu = .tail ∧ mv = .arrow
  | .pdag => (mu = .tail ∨ mu = .arrow) ∧ (mv = .tail ∨ mv = .arrow)

instance (k : Kind) (mu mv : Mark) : Decidable (marksOk k mu mv) := by
  unfold marksOk; cases k <;> infer_instance

theorem baseAddEdge_ok (h : g.WF) {e : Edge α} {ow : Bool} (hu : e.u ∈ g.nodeList) (hv : e.v ∈ g.nodeList)
    (hc : ow = true ∨ g.mark e.u e.v = none) : g.baseAddEdge e ow = .ok (g.put e) := by
  unfold baseAddEdge
  rw [checkMissingNode_ok h hu, checkMissingNode_ok h hv, isConnected_ok h hu hv, storeEdge_ok h hu hv]
  rcases hc with rfl | hc
  · rfl
  · cases ow <;> simp [hc, bind, Except.bind]

theorem baseAddEdge_err (h : g.WF) {e : Edge α} {ow : Bool}
    (hc : ¬ (e.u ∈ g.nodeList ∧ e.v ∈ g.nodeList ∧ (ow = true ∨ g.mark e.u e.v = none))) :
    g.baseAddEdge e ow = .error .assertion := by
  unfold baseAddEdge
  by_cases hu : e.u ∈ g.nodeList
  · by_cases hv : e.v ∈ g.nodeList
    · have hc' : ¬ (ow = true ∨ g.mark e.u e.v = none) := fun hh => hc ⟨hu, hv, hh⟩
      rw [checkMissingNode_ok h hu, checkMissingNode_ok h hv, isConnected_ok h hu hv]
      simp only [not_or, Bool.not_eq_true] at hc'
      obtain ⟨rfl, h2⟩ := hc'
      have : (g.mark e.u e.v).isSome = true := by
        cases hx : g.mark e.u e.v <;> simp_all
      rw [this]; rfl
    · rw [checkMissingNode_ok h hu, checkMissingNode_err h hv]; rfl
  · rw [checkMissingNode_err h hu]; rfl

theorem addEdge_ok (h : g.WF) {e : Edge α} {ow : Bool} (hm : marksOk g.kind e.mu e.mv) (hu : e.u ∈ g.nodeList)
    (hv : e.v ∈ g.nodeList) (hc : ow = true ∨ g.mark e.u e.v = none) : g.addEdge e ow = .ok (g.put e) := by
  have hb := baseAddEdge_ok h hu hv hc
  unfold addEdge
  unfold marksOk at hm
  cases hk : g.kind with
  | graph => simpa using hb
  | digraph =>
    rw [hk] at hm
    simp only at hm
    simp [hm.1, hm.2, checkMark, hb, bind, Except.bind]
  | pdag =>
    rw [hk] at hm
    simp only at hm
    simp [checkMark, Mark.pdagMarks, hm.1, hm.2, hb, bind, Except.bind]

theorem addEdge_err (h : g.WF) {e : Edge α} {ow : Bool}
    (hc : ¬ (marksOk g.kind e.mu e.mv ∧ e.u ∈ g.nodeList ∧ e.v ∈ g.nodeList ∧ (ow = true ∨ g.mark e.u e.v = none))) :
    g.addEdge e ow = .error .assertion := by
  unfold addEdge
  by_cases hm : marksOk g.kind e.mu e.mv
  · have hb := baseAddEdge_err h (fun hh => hc ⟨hm, hh⟩)
    unfold marksOk at hm
    cases hk : g.kind with
    | graph => simpa using hb
    | digraph =>
      rw [hk] at hm
      simp only at hm
      simp [hm.1, hm.2, checkMark, hb, bind, Except.bind]
    | pdag =>
      rw [hk] at hm
      simp only at hm
      simp [checkMark, Mark.pdagMarks, hm.1, hm.2, hb, bind, Except.bind]
  · unfold marksOk at hm
    cases hk : g.kind with
    | graph => rw [hk] at hm; simp at hm
    | digraph =>
      rw [hk] at hm
      simp only at hm
      cases h1 : e.mu <;> cases h2 : e.mv <;> simp_all [checkMark, bind, Except.bind]
    | pdag =>
      rw [hk] at hm
      simp only at hm
      cases h1 : e.mu <;> cases h2 : e.mv <;> simp_all [checkMark, Mark.pdagMarks, bind, Except.bind]

/-! ### adding and removing nodes -/

theorem init_WF {k : Kind} {l : List α} {g : Graph α} (h : init k l = .ok g) :
    g.WF ∧ g.nodeList = l ∧ g.kind = k ∧ ∀ u v, g.mark u v = none := by
  unfold init at h
  simp only at h
  split_ifs at h with hl
  rw [pySet_length_iff] at hl
  simp only [Except.ok.injEq] at h
  have hs := pySet_of_nodup l hl
  rw [hs] at h
  subst h
  have hget : ∀ (l : List α) u, dget (l.map (fun u => (u, ([] : Dict α Mark)))) u = if u ∈ l then some [] else none := by
    intro l u
    induction l with
    | nil => simp
    | cons x xs ih =>
      simp only [List.map_cons, dget_cons, ih, List.mem_cons]
      by_cases hx : x = u
      · simp [hx]
      · have : ¬ u = x := fun h => hx h.symm
        simp [hx, this]
  have hkeys : ∀ (l : List α), dkeys (l.map (fun u => (u, ([] : Dict α Mark)))) = l := by
    intro l; simp [dkeys, List.map_map, Function.comp_def]
  have hmk : ∀ u v, mark (⟨k, l, l, l.map (fun u => (u, ([] : Dict α Mark)))⟩ : Graph α) u v = none := by
    intro u v
    unfold mark
    simp only [hget]
    split_ifs <;> simp
  refine ⟨⟨hl, hl, fun u => Iff.rfl, ?_, ?_, ?_, ?_⟩, rfl, rfl, hmk⟩
  · intro u; simp only [hget]; split_ifs with hu <;> simp [hu]
  · simp only [hkeys]; exact hl
  · intro u a ha
    simp only [hget] at ha
    split_ifs at ha
    simp at ha; subst ha; simp [dkeys]
  · intro u v hh; rw [hmk] at hh; simp at hh

theorem init_ok_iff (k : Kind) (l : List α) : (∃ g, init k l = .ok g) ↔ l.Nodup := by
  rw [← pySet_length_iff]
  unfold init
  simp only
  split_ifs with h <;> simp [h]

theorem mark_addNode (h : g.WF) (u a b : α) : (g.addNode u).mark a b = g.mark a b := by
  unfold addNode
  split_ifs with hu
  · rfl
  · have hu' : u ∉ g.nodeList := fun hh => hu ((h.mem_set u).2 hh)
    have : dget g.adj u = none := by
      cases hd : dget g.adj u with
      | none => rfl
      | some a => exact absurd ((h.keys u).1 (by simp [hd])) hu'
    unfold mark
    simp only [dget_dset]
    by_cases hx : u = a
    · subst hx; simp [this]
    · simp [hx]

theorem nodeList_addNode (h : g.WF) (u : α) :
    (g.addNode u).nodeList = if u ∈ g.nodeList then g.nodeList else g.nodeList ++ [u] := by
  unfold addNode
  by_cases hu : u ∈ g.nodeList
  · rw [if_pos ((h.mem_set u).2 hu), if_pos hu]
  · rw [if_neg (fun hh => hu ((h.mem_set u).1 hh)), if_neg hu]

@[simp] theorem addNode_kind (g : Graph α) (u : α) : (g.addNode u).kind = g.kind := by
  unfold addNode; split_ifs <;> rfl

theorem addNode_WF (h : g.WF) (u : α) : (g.addNode u).WF := by
  have hmk := mark_addNode h u
  unfold addNode at *
  split_ifs at * with hu
  · exact h
  · have hu' : u ∉ g.nodeList := fun hh => hu ((h.mem_set u).2 hh)
    have nd : ∀ l : List α, l.Nodup → u ∉ l → (l ++ [u]).Nodup := by
      intro l hl hx
      rw [List.nodup_append]
      refine ⟨hl, by simp, ?_⟩
      intro a ha b hb
      simp at hb
      subst hb
      rintro rfl
      exact hx ha
    refine ⟨nd _ h.nodup hu', nd _ h.setNodup hu, ?_, ?_, ?_, ?_, ?_⟩
    · intro x; simp [h.mem_set]
    · intro x
      simp only [dget_dset, List.mem_append, List.mem_singleton]
      split_ifs with hx
      · subst hx; simp
      · rw [h.keys]; constructor
        · exact Or.inl
        · rintro (hh | hh)
          · exact hh
          · exact absurd hh.symm hx
    · exact dkeys_dset_nodup _ _ _ h.outer
    · intro x a ha
      simp only [dget_dset] at ha
      split_ifs at ha
      · simp at ha; subst ha; simp [dkeys]
      · exact h.inner _ _ ha
    · intro a b; rw [hmk, hmk]; exact h.symm a b

/-- Pure form of graph.py L86-87. -/
theorem popFromAll_ok (u : α) (l : List α) (adj : Dict α (Dict α Mark))
    (hk : ∀ x ∈ l, (dget adj x).isSome) (hi : ∀ x a, dget adj x = some a → (dkeys a).Nodup)
    (ho : (dkeys adj).Nodup) :
    ∃ adj', popFromAll u l adj = .ok adj' ∧ (dkeys adj').Nodup ∧
      (∀ x, (dget adj' x).isSome = (dget adj x).isSome) ∧
      (∀ x a, dget adj' x = some a → (dkeys a).Nodup) ∧
      (∀ x y, (dget adj' x).bind (fun a => dget a y) =
        if x ∈ l ∧ y = u then none else (dget adj x).bind (fun a => dget a y)) := by
  induction l generalizing adj with
  | nil => exact ⟨adj, rfl, ho, fun _ => rfl, hi, by simp⟩
  | cons v t ih =>
    obtain ⟨av, hav⟩ := Option.isSome_iff_exists.1 (hk v (by simp))
    have hstep : popFromAll u (v :: t) adj = popFromAll u t (dset adj v (ddel av u)) := by
      simp [popFromAll, dgetE_of _ _ _ hav, bind, Except.bind]
    have hs : ∀ x, (dget (dset adj v (ddel av u)) x).isSome = (dget adj x).isSome := by
      intro x; rw [dget_dset]; split_ifs with hx
      · subst hx; simp [hav]
      · rfl
    obtain ⟨adj', h1, h2, h3, h4, h5⟩ := ih (dset adj v (ddel av u))
      (fun x hx => by rw [hs]; exact hk x (by simp [hx]))
      (fun x a ha => by
        rw [dget_dset] at ha
        split_ifs at ha with hx
        · simp at ha; subst ha; exact dkeys_ddel_nodup _ _ (hi _ _ hav)
        · exact hi _ _ ha)
      (dkeys_dset_nodup _ _ _ ho)
    refine ⟨adj', hstep.trans h1, h2, fun x => by rw [h3, hs], h4, ?_⟩
    intro x y
    rw [h5]
    by_cases hx : v = x
    · subst hx
      simp only [dget_dset, ↓reduceIte, Option.bind_some, dget_ddel _ _ _ (hi _ _ hav), hav, List.mem_cons, true_or,
        true_and]
      by_cases hy : u = y
      · subst hy; simp
      · have : ¬ y = u := fun h => hy h.symm
        simp [hy, this]
    · have hx' : ¬ x = v := fun h => hx h.symm
      simp [dget_dset, hx, hx']

/-- Effect of `remove_node` (graph.py L82-92) on the abstract view. -/
theorem removeNode_ok (h : g.WF) {u : α} (hu : u ∈ g.nodeList) :
    ∃ g', g.removeNode u = .ok g' ∧ g'.WF ∧ g'.kind = g.kind ∧ g'.nodeList = g.nodeList.erase u ∧
      ∀ a b, g'.mark a b = if a = u ∨ b = u then none else g.mark a b := by
  obtain ⟨adj', h1, h2, h3, h4, h5⟩ := popFromAll_ok u g.nodeSet g.adj
    (fun x hx => (h.keys x).2 ((h.mem_set x).1 hx)) h.inner h.outer
  have hsome : (dget adj' u).isSome := by rw [h3]; exact (h.keys u).2 hu
  obtain ⟨au, hau⟩ := Option.isSome_iff_exists.1 hsome
  refine ⟨{ g with adj := ddel adj' u, nodeSet := g.nodeSet.filter (· ≠ u), nodeList := g.nodeList.erase u }, ?_, ?_,
    rfl, rfl, ?_⟩
  · unfold removeNode
    rw [checkMissingNode_ok h hu, h1]
    simp [bind, Except.bind, pure, Except.pure, dgetE_of _ _ _ hau]
  · have hmk : ∀ a b, mark { g with adj := ddel adj' u, nodeSet := g.nodeSet.filter (· ≠ u), nodeList := g.nodeList.erase u } a b
        = if a = u ∨ b = u then none else g.mark a b := by
      intro a b
      unfold mark
      simp only [dget_ddel _ _ _ h2]
      by_cases ha : u = a
      · subst ha; simp
      · have ha' : ¬ a = u := fun hh => ha hh.symm
        simp only [ha, ha', ↓reduceIte, false_or]
        rw [h5]
        by_cases hb : b = u
        · subst hb
          simp only [and_true, ↓reduceIte]
          split_ifs with hm
          · rfl
          · have : dget g.adj a = none := by
              cases hd : dget g.adj a with
              | none => rfl
              | some x => exact absurd ((h.mem_set a).2 ((h.keys a).1 (by simp [hd]))) hm
            simp [this]
        · simp [hb]
    refine ⟨h.nodup.erase u, h.setNodup.filter _, ?_, ?_, dkeys_ddel_nodup _ _ h2, ?_, ?_⟩
    · intro x
      simp only [List.mem_filter, h.mem_set, h.nodup.mem_erase_iff]
      simp [and_comm]
    · intro x
      simp only [dget_ddel _ _ _ h2, h.nodup.mem_erase_iff]
      split_ifs with hx
      · subst hx; simp
      · have : x ≠ u := fun hh => hx hh.symm
        simp [h3, h.keys, this]
    · intro x a ha
      simp only [dget_ddel _ _ _ h2] at ha
      split_ifs at ha
      exact h4 _ _ ha
    · intro a b
      rw [hmk, hmk]
      by_cases c : a = u ∨ b = u
      · rw [if_pos c]; simp
      · rw [if_neg c, if_neg (fun c' => c c'.symm)]; exact h.symm a b
  · intro a b
    unfold mark
    simp only [dget_ddel _ _ _ h2]
    by_cases ha : u = a
    · subst ha; simp
    · have ha' : ¬ a = u := fun hh => ha hh.symm
      simp only [ha, ha', ↓reduceIte, false_or]
      rw [h5]
      by_cases hb : b = u
      · subst hb
        simp only [and_true, ↓reduceIte]
        split_ifs with hm
        · rfl
        · have : dget g.adj a = none := by
            cases hd : dget g.adj a with
            | none => rfl
            | some x => exact absurd ((h.mem_set a).2 ((h.keys a).1 (by simp [hd]))) hm
          simp [this]
      · simp [hb]

theorem removeNode_err (h : g.WF) {u : α} (hu : u ∉ g.nodeList) : g.removeNode u = .error .assertion := by
  unfold removeNode; rw [checkMissingNode_err h hu]; rfl

end wf

end Graph
end Cdmir
