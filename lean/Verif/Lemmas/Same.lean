import Verif.Lemmas.Meek
import Verif.Lemmas.Skeleton
import Verif.Model.Metrics

/-! Graphs that cannot be told apart by edge queries are treated alike by the orientation rules. -/

namespace Cdmir

/-- Two computations with related outcomes: proof device. -/
def RelE {σ τ : Type} (R : σ → τ → Prop) : Except Err σ → Except Err τ → Prop
  | .ok a, .ok b => R a b
  | .error e, .error f => e = f
  | _, _ => False

theorem RelE.bind {σ τ σ' τ' : Type} {R : σ → τ → Prop} {S : σ' → τ' → Prop} {m : Except Err σ} {n : Except Err τ}
    {f : σ → Except Err σ'} {k : τ → Except Err τ'} (h : RelE R m n) (hf : ∀ a b, R a b → RelE S (f a) (k b)) :
    RelE S (m >>= f) (n >>= k) := by
  cases m <;> cases n <;> first | exact h.elim | skip
  · exact h
  · exact hf _ _ h

theorem RelE.bind_eq {σ σ' τ' : Type} {S : σ' → τ' → Prop} {m n : Except Err σ}
    {f : σ → Except Err σ'} {k : σ → Except Err τ'} (h : m = n) (hf : ∀ a, RelE S (f a) (k a)) :
    RelE S (m >>= f) (n >>= k) := by
  subst h
  cases m
  · rfl
  · exact hf _

theorem RelE.foldlM {σ τ β : Type} {R : σ → τ → Prop} {f : σ → β → Except Err σ} {k : τ → β → Except Err τ} (l : List β)
    (h : ∀ a b x, R a b → RelE R (f a x) (k b x)) : ∀ a b, R a b → RelE R (l.foldlM f a) (l.foldlM k b) := by
  induction l with
  | nil => intro a b hab; exact hab
  | cons x t ih =>
    intro a b hab
    rw [List.foldlM_cons, List.foldlM_cons]
    exact (h a b x hab).bind (fun a' b' h' => ih a' b' h')

namespace Graph
variable {α : Type} [DecidableEq α] {g h : Graph α}

/-- Same class, same node list, same marks: proof device. -/
structure Same (g h : Graph α) : Prop where
  wf : g.WF
  wf' : h.WF
  kind : g.kind = h.kind
  nodes : g.nodeList = h.nodeList
  mark : ∀ u v, g.mark u v = h.mark u v

theorem Same.symm (s : Same g h) : Same h g :=
  ⟨s.wf', s.wf, s.kind.symm, s.nodes.symm, fun u v => (s.mark u v).symm⟩

theorem Same.isConnected (s : Same g h) (u v : α) : g.isConnected u v = h.isConnected u v := by
  by_cases hm : u ∈ g.nodeList ∧ v ∈ g.nodeList
  · rw [isConnected_ok s.wf hm.1 hm.2, isConnected_ok s.wf' (s.nodes ▸ hm.1) (s.nodes ▸ hm.2), s.mark]
  · rw [isConnected_err s.wf hm, isConnected_err s.wf' (by rw [← s.nodes]; exact hm)]

theorem Same.getEdge (s : Same g h) (u v : α) : g.getEdge u v = h.getEdge u v := by
  by_cases hm : u ∈ g.nodeList ∧ v ∈ g.nodeList
  · rw [getEdge_ok s.wf hm.1 hm.2, getEdge_ok s.wf' (s.nodes ▸ hm.1) (s.nodes ▸ hm.2)]
    unfold edge?; rw [s.mark, s.mark]
  · rw [getEdge_err s.wf hm, getEdge_err s.wf' (by rw [← s.nodes]; exact hm)]

theorem Same.hasMark (s : Same g h) (m : Mark) (u v : α) : g.hasMark m u v = h.hasMark m u v := by
  by_cases hm : u ∈ g.nodeList ∧ v ∈ g.nodeList
  · rw [hasMark_ok s.wf _ hm.1 hm.2, hasMark_ok s.wf' _ (s.nodes ▸ hm.1) (s.nodes ▸ hm.2), s.mark]
  · rw [hasMark_err s.wf _ hm, hasMark_err s.wf' _ (by rw [← s.nodes]; exact hm)]

theorem Same.isFullyDirected (s : Same g h) (u v : α) : g.isFullyDirected u v = h.isFullyDirected u v := by
  unfold Graph.isFullyDirected isTail isArrow
  simp only [s.isConnected, s.hasMark]

theorem Same.isFullyUndirected (s : Same g h) (u v : α) : g.isFullyUndirected u v = h.isFullyUndirected u v := by
  unfold Graph.isFullyUndirected isTail
  simp only [s.isConnected, s.hasMark]

theorem Same.undThenDir (s : Same g h) (u v w : α) : g.undThenDir u v w = h.undThenDir u v w := by
  unfold Graph.undThenDir
  rw [s.isFullyUndirected, s.isFullyDirected]

theorem Same.removeEdge (s : Same g h) (u v : α) : RelE Same (g.removeEdge u v) (h.removeEdge u v) := by
  by_cases hm : u ∈ g.nodeList ∧ v ∈ g.nodeList
  · have hm' : u ∈ h.nodeList ∧ v ∈ h.nodeList := s.nodes ▸ hm
    rw [removeEdge_ok s.wf hm.1 hm.2, removeEdge_ok s.wf' hm'.1 hm'.2, ← s.mark]
    split_ifs
    · exact ⟨drop_WF s.wf hm.1 hm.2, drop_WF s.wf' hm'.1 hm'.2, s.kind, s.nodes,
        fun a b => by rw [mark_drop s.wf, mark_drop s.wf', s.mark]⟩
    · exact s
  · rw [removeEdge_err s.wf hm, removeEdge_err s.wf' (by rw [← s.nodes]; exact hm)]
    rfl

theorem Same.addEdge (s : Same g h) (e : Edge α) (ow : Bool) : RelE Same (g.addEdge e ow) (h.addEdge e ow) := by
  by_cases hc : marksOk g.kind e.mu e.mv ∧ e.u ∈ g.nodeList ∧ e.v ∈ g.nodeList ∧ (ow = true ∨ g.mark e.u e.v = none)
  · have hc' : marksOk h.kind e.mu e.mv ∧ e.u ∈ h.nodeList ∧ e.v ∈ h.nodeList ∧ (ow = true ∨ h.mark e.u e.v = none) := by
      rw [← s.kind, ← s.nodes, ← s.mark]; exact hc
    rw [addEdge_ok s.wf hc.1 hc.2.1 hc.2.2.1 hc.2.2.2, addEdge_ok s.wf' hc'.1 hc'.2.1 hc'.2.2.1 hc'.2.2.2]
    exact ⟨put_WF s.wf hc.2.1 hc.2.2.1, put_WF s.wf' hc'.2.1 hc'.2.2.1, s.kind, s.nodes,
      fun a b => by rw [mark_put, mark_put, s.mark]⟩
  · rw [addEdge_err s.wf hc, addEdge_err s.wf' (by rw [← s.kind, ← s.nodes, ← s.mark]; exact hc)]
    rfl

theorem Same.orient (s : Same g h) (a b : α) : RelE Same (g.orient a b) (h.orient a b) :=
  (s.removeEdge a b).bind (fun _ _ s' => s'.addEdge _ _)

/-- Same graph and same flag: proof device. -/
def SameF (x y : Graph α × Bool) : Prop := Same x.1 y.1 ∧ x.2 = y.2

theorem SameF.orient {x y : Graph α × Bool} (s : SameF x y) (a b : α) :
    RelE SameF (do let g' ← x.1.orient a b; pure (g', true)) (do let g' ← y.1.orient a b; pure (g', true)) :=
  (s.1.orient a b).bind (fun _ _ s' => ⟨s', rfl⟩)

theorem SameF.nodes {x y : Graph α × Bool} (s : SameF x y) : x.1.nodes = y.1.nodes := s.1.nodes

theorem SameF.rule1Body {x y : Graph α × Bool} (s : SameF x y) (u v w : α) :
    RelE SameF (rule1Body u v x w) (rule1Body u v y w) := by
  unfold Graph.rule1Body
  split_ifs with c
  · exact s
  · refine RelE.bind_eq (s.1.isConnected _ _) (fun b => ?_)
    cases b
    · refine RelE.bind_eq (s.1.isFullyUndirected _ _) (fun b => ?_)
      cases b
      · exact s
      · exact s.orient _ _
    · exact s

theorem SameF.rule2Body {x y : Graph α × Bool} (s : SameF x y) (u v w : α) :
    RelE SameF (rule2Body u v x w) (rule2Body u v y w) := by
  unfold Graph.rule2Body
  split_ifs with c
  · exact s
  · refine RelE.bind_eq (s.1.isFullyDirected _ _) (fun b => ?_)
    cases b
    · exact s
    · refine RelE.bind_eq (s.1.isFullyUndirected _ _) (fun b => ?_)
      cases b
      · exact s
      · exact s.orient _ _

theorem SameF.rule3X {x y : Graph α × Bool} (s : SameF x y) (u w v t : α) :
    RelE SameF (rule3X u w v x t) (rule3X u w v y t) := by
  unfold Graph.rule3X
  split_ifs with c
  · exact s
  · refine RelE.bind_eq (s.1.undThenDir _ _ _) (fun b => ?_)
    cases b
    · exact s
    · exact s.orient _ _

theorem SameF.rule3V {x y : Graph α × Bool} (s : SameF x y) (u w v : α) :
    RelE SameF (rule3V u w x v) (rule3V u w y v) := by
  unfold Graph.rule3V
  split_ifs with c
  · exact s
  · refine RelE.bind_eq (s.1.undThenDir _ _ _) (fun b => ?_)
    cases b
    · exact s
    · simp only [Bool.not_true, Bool.false_eq_true, if_false]
      rw [s.nodes]
      exact RelE.foldlM _ (fun a b t h => h.rule3X _ _ _ _) _ _ s

theorem SameF.rule4X {x y : Graph α × Bool} (s : SameF x y) (u w v t : α) :
    RelE SameF (rule4X u w v x t) (rule4X u w v y t) := by
  unfold Graph.rule4X
  split_ifs with c
  · exact s
  · refine RelE.bind_eq (s.1.isFullyUndirected _ _) (fun b => ?_)
    cases b
    · exact s
    · refine RelE.bind_eq (s.1.isFullyUndirected _ _) (fun b => ?_)
      cases b
      · exact s
      · refine RelE.bind_eq (s.1.isConnected _ _) (fun b => ?_)
        cases b
        · exact s
        · exact s.orient _ _

theorem SameF.rule4V {x y : Graph α × Bool} (s : SameF x y) (u w v : α) :
    RelE SameF (rule4V u w x v) (rule4V u w y v) := by
  unfold Graph.rule4V
  split_ifs with c
  · exact s
  · refine RelE.bind_eq (s.1.undThenDir _ _ _) (fun b => ?_)
    cases b
    · exact s
    · simp only [Bool.not_true, Bool.false_eq_true, if_false]
      rw [s.nodes]
      exact RelE.foldlM _ (fun a b t h => h.rule4X _ _ _ _) _ _ s

theorem Same.rule1 (s : Same g h) : RelE SameF g.rule1 h.rule1 := by
  unfold Graph.rule1
  rw [show g.nodes = h.nodes from s.nodes]
  refine RelE.foldlM _ (fun x y p hxy => ?_) _ _ ⟨s, rfl⟩
  refine RelE.bind_eq (hxy.1.isFullyDirected _ _) (fun b => ?_)
  cases b
  · exact hxy
  · simp only [if_true]
    rw [hxy.nodes]
    exact RelE.foldlM _ (fun a b t h => h.rule1Body _ _ _) _ _ hxy

theorem Same.rule2 (s : Same g h) : RelE SameF g.rule2 h.rule2 := by
  unfold Graph.rule2
  rw [show g.nodes = h.nodes from s.nodes]
  refine RelE.foldlM _ (fun x y p hxy => ?_) _ _ ⟨s, rfl⟩
  refine RelE.bind_eq (hxy.1.isFullyDirected _ _) (fun b => ?_)
  cases b
  · exact hxy
  · simp only [if_true]
    rw [hxy.nodes]
    exact RelE.foldlM _ (fun a b t h => h.rule2Body _ _ _) _ _ hxy

theorem Same.rule3 (s : Same g h) : RelE SameF g.rule3 h.rule3 := by
  unfold Graph.rule3
  rw [show g.nodes = h.nodes from s.nodes]
  refine RelE.foldlM _ (fun x y p hxy => ?_) _ _ ⟨s, rfl⟩
  refine RelE.bind_eq (hxy.1.isFullyUndirected _ _) (fun b => ?_)
  cases b
  · exact hxy
  · simp only [if_true]
    rw [hxy.nodes]
    exact RelE.foldlM _ (fun a b t h => h.rule3V _ _ _) _ _ hxy

theorem Same.rule4 (s : Same g h) : RelE SameF g.rule4 h.rule4 := by
  unfold Graph.rule4
  rw [show g.nodes = h.nodes from s.nodes]
  refine RelE.foldlM _ (fun x y p hxy => ?_) _ _ ⟨s, rfl⟩
  refine RelE.bind_eq (hxy.1.isConnected _ _) (fun b => ?_)
  cases b
  · simp only [Bool.false_eq_true, if_false]
    rw [hxy.nodes]
    exact RelE.foldlM _ (fun a b t h => h.rule4V _ _ _) _ _ hxy
  · exact hxy

theorem Same.meekPass (s : Same g h) : RelE SameF g.meekPass h.meekPass := by
  unfold Graph.meekPass
  refine s.rule1.bind (fun x1 y1 h1 => ?_)
  refine h1.1.rule2.bind (fun x2 y2 h2 => ?_)
  refine h2.1.rule3.bind (fun x3 y3 h3 => ?_)
  refine h3.1.rule4.bind (fun x4 y4 h4 => ?_)
  refine ⟨h4.1, ?_⟩
  simp only [h1.2, h2.2, h3.2, h4.2]

theorem Same.meekLoop (n : Nat) : ∀ {g h : Graph α}, Same g h → RelE Same (meekLoop n g) (meekLoop n h) := by
  induction n with
  | zero => intro g h _; rfl
  | succ n ih =>
    intro g h s
    unfold Graph.meekLoop
    refine s.meekPass.bind (fun x y hxy => ?_)
    simp only [hxy.2]
    cases y.2
    · exact hxy.1
    · exact ih hxy.1

/-- `orient_by_meek_rules` treats indistinguishable graphs alike. -/
theorem Same.orientByMeekRules (s : Same g h) : RelE Same g.orientByMeekRules h.orientByMeekRules := by
  unfold Graph.orientByMeekRules
  rw [show g.nodes = h.nodes from s.nodes]
  exact s.meekLoop _

theorem Same.of_getEdge (hw : g.WF) (hw' : h.WF) (hk : g.kind = h.kind) (hn : g.nodeList = h.nodeList)
    (he : ∀ u ∈ g.nodeList, ∀ v ∈ g.nodeList, g.getEdge u v = h.getEdge u v) : Same g h := by
  refine ⟨hw, hw', hk, hn, fun u v => ?_⟩
  by_cases hm : u ∈ g.nodeList ∧ v ∈ g.nodeList
  · have := he u hm.1 v hm.2
    rw [getEdge_ok hw hm.1 hm.2, getEdge_ok hw' (hn ▸ hm.1) (hn ▸ hm.2)] at this
    have := Except.ok.inj this
    unfold edge? at this
    have s1 := hw.symm_iff u v
    have s2 := hw'.symm_iff u v
    cases e1 : g.mark u v <;> cases e2 : g.mark v u <;> cases e3 : h.mark u v <;> cases e4 : h.mark v u <;>
      simp_all
  · have n1 : g.mark u v = none := by
      by_contra hc
      have hs : (g.mark u v).isSome := Option.isSome_iff_ne_none.2 hc
      exact hm ⟨hw.mark_left hs, hw.mark_right hs⟩
    have n2 : h.mark u v = none := by
      by_contra hc
      have hs : (h.mark u v).isSome := Option.isSome_iff_ne_none.2 hc
      exact hm ⟨hn ▸ hw'.mark_left hs, hn ▸ hw'.mark_right hs⟩
    rw [n1, n2]

/-- `graph_equal` on graphs whose marks are determined by their integer values. -/
theorem graphEqual_iff (hg : g.Good) (hh : h.Good) (hk : g.kind = h.kind) (hk' : g.kind ≠ .graph) (hn : g.nodeList = h.nodeList) :
    ∃ b, g.graphEqual h = .ok b ∧ (b = true ↔ ∀ u v, g.mark u v = h.mark u v) := by
  obtain ⟨a, e1, _, h1⟩ := toNumpy_ok hg.wf
  obtain ⟨b, e2, _, h2⟩ := toNumpy_ok hh.wf
  unfold graphEqual missMatch
  rw [if_neg (by simp [hk]), if_neg (by simp [show g.nodes = h.nodes from hn])]
  simp only [pure, bind, Except.bind, Except.pure, e1, e2]
  refine ⟨_, rfl, ?_⟩
  simp only [List.all_eq_true, List.mem_range, decide_eq_true_eq]
  have real : ∀ (k : Graph α), k.Good → k.kind ≠ .graph → ∀ u v m, k.mark u v = some m → m = .tail ∨ m = .arrow := by
    intro k hgk hne u v m hm
    have := hgk.kindOK
    unfold KindOK at this
    cases e : k.kind with
    | graph => exact absurd e hne
    | digraph =>
      rw [e] at this
      simp only at this
      by_cases huv : u = v
      · subst huv
        have h3 := this.2 u (by rw [hm]; rfl)
        rw [hm] at h3; cases h3; exact Or.inl rfl
      · rcases this.1 u v huv (by rw [hm]; rfl) with ⟨h3, _⟩ | ⟨h3, _⟩ <;> rw [hm] at h3 <;> cases h3
        · exact Or.inr rfl
        · exact Or.inl rfl
    | pdag =>
      rw [e] at this
      simp only at this
      exact this u v m hm
  constructor
  · intro hall u v
    by_cases hm : u ∈ g.nodeList ∧ v ∈ g.nodeList
    · have := hall (g.nodeList.idxOf v) (List.idxOf_lt_length_iff.2 hm.2) (g.nodeList.idxOf u) (List.idxOf_lt_length_iff.2 hm.1)
      have hm' : u ∈ h.nodeList ∧ v ∈ h.nodeList := hn ▸ hm
      have h2' := h2 u hm'.1 v hm'.2
      rw [← hn, ← this, h1 u hm.1 v hm.2] at h2'
      have r1 := real g hg hk' u v
      have r2 := real h hh (hk ▸ hk') u v
      cases e1 : g.mark u v with
      | none =>
        cases e2 : h.mark u v with
        | none => rfl
        | some m =>
          rw [e1, e2] at h2'
          rcases r2 m e2 with rfl | rfl <;> simp [Mark.toInt] at h2'
      | some m =>
        cases e2 : h.mark u v with
        | none =>
          rw [e1, e2] at h2'
          rcases r1 m e1 with rfl | rfl <;> simp [Mark.toInt] at h2'
        | some m' =>
          rw [e1, e2] at h2'
          rcases r1 m e1 with rfl | rfl <;> rcases r2 m' e2 with rfl | rfl <;> simp [Mark.toInt] at h2' ⊢
    · have n1 : g.mark u v = none := by
        by_contra hc
        have hs : (g.mark u v).isSome := Option.isSome_iff_ne_none.2 hc
        exact hm ⟨hg.wf.mark_left hs, hg.wf.mark_right hs⟩
      have n2 : h.mark u v = none := by
        by_contra hc
        have hs : (h.mark u v).isSome := Option.isSome_iff_ne_none.2 hc
        exact hm ⟨hn ▸ hh.wf.mark_left hs, hn ▸ hh.wf.mark_right hs⟩
      rw [n1, n2]
  · intro hall i hi j hj
    have hi' : i < g.nodeList.length := hi
    have hj' : j < g.nodeList.length := hj
    have mi : g.nodeList[i] ∈ g.nodeList := List.getElem_mem _
    have mj : g.nodeList[j] ∈ g.nodeList := List.getElem_mem _
    have k1 := h1 _ mj _ mi
    have k2 := h2 _ (by rw [← hn]; exact mj) _ (by rw [← hn]; exact mi)
    rw [← hn, ← hall] at k2
    rw [hg.wf.nodup.idxOf_getElem, hg.wf.nodup.idxOf_getElem] at k1 k2
    rw [k1, k2]

theorem Same.graphEqual (s : Same g h) (hg : g.Good) (hh : h.Good) (hk : g.kind ≠ .graph) : g.graphEqual h = .ok true := by
  obtain ⟨b, e, hb⟩ := graphEqual_iff hg hh s.kind hk s.nodes
  rw [e, hb.2 s.mark]

end Graph
end Cdmir
