import Verif.Lemmas.Graph

/-! The representation and mark invariants hold after any history of public operations. -/

namespace Cdmir
namespace Graph
variable {α : Type} [DecidableEq α]

/-- Mark invariant of each class (digraph.py L9-12, pdag.py L8-11): proof device. -/
def KindOK (g : Graph α) : Prop :=
  match g.kind with
  | .graph => True
  | .digraph =>
    (∀ u v, u ≠ v → (g.mark u v).isSome →
      (g.mark u v = some .arrow ∧ g.mark v u = some .tail) ∨ (g.mark u v = some .tail ∧ g.mark v u = some .arrow)) ∧
    ∀ u, (g.mark u u).isSome → g.mark u u = some .tail
  | .pdag => ∀ u v m, g.mark u v = some m → m = .tail ∨ m = .arrow

/-- No node is adjacent to itself: proof device. -/
def NoLoop (g : Graph α) : Prop := ∀ u, g.mark u u = none

/-- Both invariants together: proof device. -/
structure Good (g : Graph α) : Prop where
  wf : g.WF
  kindOK : g.KindOK

variable {g g' : Graph α}

theorem addEdge_ok_iff (h : g.WF) {e : Edge α} {ow : Bool} :
    g.addEdge e ow = .ok g' ↔
      (marksOk g.kind e.mu e.mv ∧ e.u ∈ g.nodeList ∧ e.v ∈ g.nodeList ∧ (ow = true ∨ g.mark e.u e.v = none)) ∧
        g' = g.put e := by
  by_cases hc : marksOk g.kind e.mu e.mv ∧ e.u ∈ g.nodeList ∧ e.v ∈ g.nodeList ∧ (ow = true ∨ g.mark e.u e.v = none)
  · rw [addEdge_ok h hc.1 hc.2.1 hc.2.2.1 hc.2.2.2]
    simp only [Except.ok.injEq, hc, true_and]
    exact ⟨fun h => h.symm, fun h => h.symm⟩
  · rw [addEdge_err h hc]; simp [hc]

theorem put_KindOK (h : g.KindOK) {e : Edge α} (hm : marksOk g.kind e.mu e.mv) : (g.put e).KindOK := by
  unfold KindOK at *
  unfold marksOk at hm
  rw [put_kind]
  cases hk : g.kind with
  | graph => trivial
  | digraph =>
    rw [hk] at h hm
    simp only at h hm
    obtain ⟨h1, h2⟩ := h
    obtain ⟨m1, m2⟩ := hm
    constructor
    · intro a b hab
      rw [mark_put, mark_put, m1, m2]
      by_cases c1 : a = e.v ∧ b = e.u
      · have c2 : ¬ (b = e.v ∧ a = e.u) := by
          rintro ⟨x, y⟩; exact hab (c1.1.trans x.symm)
        rw [if_pos c1, if_neg c2, if_pos ⟨c1.2, c1.1⟩]
        simp
      · by_cases c2 : a = e.u ∧ b = e.v
        · rw [if_neg c1, if_pos c2, if_pos ⟨c2.2, c2.1⟩]; simp
        · rw [if_neg c1, if_neg c2, if_neg (fun c => c2 ⟨c.2, c.1⟩), if_neg (fun c => c1 ⟨c.2, c.1⟩)]
          exact h1 a b hab
    · intro a
      rw [mark_put, m1, m2]
      by_cases c1 : a = e.v ∧ a = e.u
      · rw [if_pos c1]; simp
      · rw [if_neg c1, if_neg (fun c => c1 ⟨c.2, c.1⟩)]; exact h2 a
  | pdag =>
    rw [hk] at h hm
    simp only at h hm
    intro a b m
    rw [mark_put]
    split_ifs
    · rintro ⟨⟩; exact hm.1
    · rintro ⟨⟩; exact hm.2
    · exact h a b m

theorem KindOK_of_sub (h : g.KindOK) (hk : g'.kind = g.kind)
    (hm : ∀ u v, (g'.mark u v = g.mark u v ∧ g'.mark v u = g.mark v u) ∨ (g'.mark u v = none ∧ g'.mark v u = none)) :
    g'.KindOK := by
  unfold KindOK at *
  rw [hk]
  cases hk : g.kind with
  | graph => trivial
  | digraph =>
    rw [hk] at h
    simp only at h
    refine ⟨fun u v huv hs => ?_, fun u hs => ?_⟩
    · rcases hm u v with ⟨e1, e2⟩ | ⟨e1, e2⟩
      · rw [e1, e2]; rw [e1] at hs; exact h.1 u v huv hs
      · rw [e1] at hs; simp at hs
    · rcases hm u u with ⟨e1, e2⟩ | ⟨e1, e2⟩
      · rw [e1]; rw [e1] at hs; exact h.2 u hs
      · rw [e1] at hs; simp at hs
  | pdag =>
    rw [hk] at h
    simp only at h
    intro u v m he
    rcases hm u v with ⟨e1, e2⟩ | ⟨e1, e2⟩
    · rw [e1] at he; exact h u v m he
    · rw [e1] at he; simp at he

theorem drop_KindOK (hw : g.WF) (h : g.KindOK) (u v : α) : (g.drop u v).KindOK := by
  refine KindOK_of_sub h rfl (fun a b => ?_)
  rw [mark_drop hw, mark_drop hw]
  by_cases c : (a = u ∧ b = v) ∨ (a = v ∧ b = u)
  · rw [if_pos c, if_pos (by tauto)]; simp
  · rw [if_neg c, if_neg (by tauto)]; simp

theorem addEdge_good (h : g.Good) {e : Edge α} {ow : Bool} (he : g.addEdge e ow = .ok g') :
    g'.Good ∧ g'.kind = g.kind := by
  obtain ⟨⟨h1, h2, h3, _⟩, rfl⟩ := (addEdge_ok_iff h.wf).1 he
  exact ⟨⟨put_WF h.wf h2 h3, put_KindOK h.kindOK h1⟩, rfl⟩

theorem removeEdge_good (h : g.Good) {u v : α} (he : g.removeEdge u v = .ok g') : g'.Good ∧ g'.kind = g.kind := by
  by_cases huv : u ∈ g.nodeList ∧ v ∈ g.nodeList
  · rw [removeEdge_ok h.wf huv.1 huv.2] at he
    simp only [Except.ok.injEq] at he
    split_ifs at he
    · subst he; exact ⟨⟨drop_WF h.wf huv.1 huv.2, drop_KindOK h.wf h.kindOK u v⟩, rfl⟩
    · subst he; exact ⟨h, rfl⟩
  · rw [removeEdge_err h.wf huv] at he; simp at he

theorem addNode_good (h : g.Good) (u : α) : (g.addNode u).Good ∧ (g.addNode u).kind = g.kind := by
  refine ⟨⟨addNode_WF h.wf u, KindOK_of_sub h.kindOK (by simp) (fun a b => Or.inl ?_)⟩, by simp⟩
  exact ⟨mark_addNode h.wf u a b, mark_addNode h.wf u b a⟩

theorem removeNode_good (h : g.Good) {u : α} (he : g.removeNode u = .ok g') : g'.Good ∧ g'.kind = g.kind := by
  by_cases hu : u ∈ g.nodeList
  · obtain ⟨g1, e1, e2, e3, e4, e5⟩ := removeNode_ok h.wf hu
    rw [e1] at he
    simp only [Except.ok.injEq] at he
    subst he
    refine ⟨⟨e2, KindOK_of_sub h.kindOK e3 (fun a b => ?_)⟩, e3⟩
    rw [e5, e5]
    by_cases c : a = u ∨ b = u
    · rw [if_pos c, if_pos c.symm]; simp
    · rw [if_neg c, if_neg (fun c' => c c'.symm)]; simp
  · rw [removeNode_err h.wf hu] at he; simp at he

theorem addEdges_good (h : g.Good) (es : List (Edge α)) (ow : Bool) :
    (g.addEdges es ow).1.Good ∧ (g.addEdges es ow).1.kind = g.kind := by
  induction es generalizing g with
  | nil => exact ⟨h, rfl⟩
  | cons e t ih =>
    unfold addEdges
    cases he : g.addEdge e ow with
    | ok g1 =>
      obtain ⟨h1, h2⟩ := addEdge_good h he
      have := ih h1
      exact ⟨this.1, this.2.trans h2⟩
    | error x => exact ⟨h, rfl⟩

theorem removeNodesFrom_good (h : g.Good) (us : List α) :
    (g.removeNodesFrom us).1.Good ∧ (g.removeNodesFrom us).1.kind = g.kind := by
  induction us generalizing g with
  | nil => exact ⟨h, rfl⟩
  | cons u t ih =>
    unfold removeNodesFrom
    cases he : g.removeNode u with
    | ok g1 =>
      obtain ⟨h1, h2⟩ := removeNode_good h he
      have := ih h1
      exact ⟨this.1, this.2.trans h2⟩
    | error x => exact ⟨h, rfl⟩

theorem step_good (h : g.Good) (o : Op α) : (g.step o).1.Good ∧ (g.step o).1.kind = g.kind := by
  cases o with
  | addNode u => exact addNode_good h u
  | addNodes us =>
    show (g.addNodes us).Good ∧ (g.addNodes us).kind = g.kind
    unfold addNodes
    exact foldl_inv (fun x => x.Good ∧ x.kind = g.kind) us
      (fun s x _ hs => ⟨(addNode_good hs.1 x).1, (addNode_good hs.1 x).2.trans hs.2⟩) g ⟨h, rfl⟩
  | addEdge e ow =>
    simp only [step]
    cases he : g.addEdge e ow with
    | ok g1 => exact addEdge_good h he
    | error x => exact ⟨h, rfl⟩
  | addEdges es ow => exact addEdges_good h es ow
  | removeNode u =>
    simp only [step]
    cases he : g.removeNode u with
    | ok g1 => exact removeNode_good h he
    | error x => exact ⟨h, rfl⟩
  | removeNodesFrom us => exact removeNodesFrom_good h us
  | removeEdge u v =>
    simp only [step]
    cases he : g.removeEdge u v with
    | ok g1 => exact removeEdge_good h he
    | error x => exact ⟨h, rfl⟩

theorem run_good (h : g.Good) (ops : List (Op α)) : (g.run ops).Good ∧ (g.run ops).kind = g.kind := by
  unfold run
  exact foldl_inv (fun x => x.Good ∧ x.kind = g.kind) ops
    (fun s x _ hs => ⟨(step_good hs.1 x).1, (step_good hs.1 x).2.trans hs.2⟩) g ⟨h, rfl⟩

theorem init_good {k : Kind} {l : List α} (h : init k l = .ok g) : g.Good ∧ g.kind = k := by
  obtain ⟨h1, h2, h3, h4⟩ := init_WF h
  refine ⟨⟨h1, ?_⟩, h3⟩
  unfold KindOK
  cases g.kind with
  | graph => trivial
  | digraph => constructor <;> (intros; simp_all)
  | pdag => intro u v m hm; rw [h4] at hm; simp at hm

/-! ### self-loops -/

/-- Edges added by a call (graph.py L48-63). -/
def opEdges : Op α → List (Edge α)
  | .addEdge e _ => [e]
  | .addEdges es _ => es
  | _ => []

theorem addEdge_noLoop (h : g.WF) (hn : g.NoLoop) {e : Edge α} {ow : Bool} (hne : e.u ≠ e.v)
    (he : g.addEdge e ow = .ok g') : g'.NoLoop := by
  obtain ⟨_, rfl⟩ := (addEdge_ok_iff h).1 he
  intro a
  rw [mark_put, if_neg, if_neg, hn a]
  · rintro ⟨x, y⟩; exact hne (x.symm.trans y)
  · rintro ⟨x, y⟩; exact hne (y.symm.trans x)

theorem addEdges_noLoop (h : g.Good) (hn : g.NoLoop) (es : List (Edge α)) (ow : Bool) (hne : ∀ e ∈ es, e.u ≠ e.v) :
    (g.addEdges es ow).1.NoLoop := by
  induction es generalizing g with
  | nil => exact hn
  | cons e t ih =>
    unfold addEdges
    cases he : g.addEdge e ow with
    | ok g1 =>
      exact ih (addEdge_good h he).1 (addEdge_noLoop h.wf hn (hne e (by simp)) he) (fun e' h' => hne e' (by simp [h']))
    | error x => exact hn

theorem removeNode_noLoop (h : g.WF) (hn : g.NoLoop) {u : α} (he : g.removeNode u = .ok g') : g'.NoLoop := by
  by_cases hu : u ∈ g.nodeList
  · obtain ⟨g1, e1, e2, e3, e4, e5⟩ := removeNode_ok h hu
    rw [e1] at he
    simp only [Except.ok.injEq] at he
    subst he
    intro a; rw [e5, hn a]; split_ifs <;> rfl
  · rw [removeNode_err h hu] at he; simp at he

theorem removeNodesFrom_noLoop (h : g.Good) (hn : g.NoLoop) (us : List α) : (g.removeNodesFrom us).1.NoLoop := by
  induction us generalizing g with
  | nil => exact hn
  | cons u t ih =>
    unfold removeNodesFrom
    cases he : g.removeNode u with
    | ok g1 => exact ih (removeNode_good h he).1 (removeNode_noLoop h.wf hn he)
    | error x => exact hn

theorem removeEdge_noLoop (h : g.WF) (hn : g.NoLoop) {u v : α} (he : g.removeEdge u v = .ok g') : g'.NoLoop := by
  by_cases huv : u ∈ g.nodeList ∧ v ∈ g.nodeList
  · rw [removeEdge_ok h huv.1 huv.2] at he
    simp only [Except.ok.injEq] at he
    split_ifs at he
    · subst he; intro a; rw [mark_drop h, hn a]; split_ifs <;> rfl
    · subst he; exact hn
  · rw [removeEdge_err h huv] at he; simp at he

theorem step_noLoop (h : g.Good) (hn : g.NoLoop) (o : Op α) (ho : ∀ e ∈ opEdges o, e.u ≠ e.v) :
    (g.step o).1.NoLoop := by
  cases o with
  | addNode u => intro a; show (g.addNode u).mark a a = none; rw [mark_addNode h.wf]; exact hn a
  | addNodes us =>
    show (g.addNodes us).NoLoop
    unfold addNodes
    exact (foldl_inv (fun x => x.Good ∧ x.NoLoop) us
      (fun s x _ hs => ⟨(addNode_good hs.1 x).1, fun a => by rw [mark_addNode hs.1.wf]; exact hs.2 a⟩) g ⟨h, hn⟩).2
  | addEdge e ow =>
    simp only [step]
    cases he : g.addEdge e ow with
    | ok g1 => exact addEdge_noLoop h.wf hn (ho e (by simp [opEdges])) he
    | error x => exact hn
  | addEdges es ow => exact addEdges_noLoop h hn es ow ho
  | removeNode u =>
    simp only [step]
    cases he : g.removeNode u with
    | ok g1 => exact removeNode_noLoop h.wf hn he
    | error x => exact hn
  | removeNodesFrom us => exact removeNodesFrom_noLoop h hn us
  | removeEdge u v =>
    simp only [step]
    cases he : g.removeEdge u v with
    | ok g1 => exact removeEdge_noLoop h.wf hn he
    | error x => exact hn

theorem run_noLoop (h : g.Good) (hn : g.NoLoop) (ops : List (Op α)) (ho : ∀ o ∈ ops, ∀ e ∈ opEdges o, e.u ≠ e.v) :
    (g.run ops).NoLoop := by
  unfold run
  exact (foldl_inv (fun x => x.Good ∧ x.NoLoop) ops
    (fun s x hx hs => ⟨(step_good hs.1 x).1, step_noLoop hs.1 hs.2 x (ho x hx)⟩) g ⟨h, hn⟩).2

end Graph
end Cdmir
