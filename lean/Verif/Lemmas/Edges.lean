import Verif.Lemmas.Reach
import Mathlib.Data.List.ProdSigma

/-! Facts about `edges` (graph.py L70-77), index pairs and the numeric matrix (graph.py L134-145). -/

namespace Cdmir

section
variable {α : Type _} [DecidableEq α]

theorem mem_pairs_iff {l : List α} (hl : l.Nodup) (a b : α) :
    (a, b) ∈ pairs l ↔ a ∈ l ∧ b ∈ l ∧ l.idxOf a < l.idxOf b := by
  induction l with
  | nil => simp [pairs]
  | cons x xs ih =>
    rw [List.nodup_cons] at hl
    simp only [pairs, List.mem_append, List.mem_map, Prod.mk.injEq, ih hl.2, List.mem_cons]
    by_cases ha : a = x
    · subst ha
      by_cases hb : b = a
      · subst hb
        simp [hl.1]
      · have hb' : a ≠ b := fun h => hb h.symm
        simp [hb, hl.1, List.idxOf_cons_ne _ hb']
    · have ha' : x ≠ a := fun h => ha h.symm
      by_cases hb : b = x
      · subst hb
        simp [ha, ha', List.idxOf_cons_ne _ ha', hl.1]
      · have hb' : x ≠ b := fun h => hb h.symm
        simp [ha, hb, ha', List.idxOf_cons_ne _ ha', List.idxOf_cons_ne _ hb']

/-- Lexicographic order on index pairs: loop order of graph.py L73-74. -/
def lexLt (l : List α) (p q : α × α) : Prop :=
  l.idxOf p.1 < l.idxOf q.1 ∨ (l.idxOf p.1 = l.idxOf q.1 ∧ l.idxOf p.2 < l.idxOf q.2)

theorem pairs_sorted {l : List α} (hl : l.Nodup) : (pairs l).Pairwise (lexLt l) := by
  induction l with
  | nil => simp [pairs]
  | cons x xs ih =>
    rw [List.nodup_cons] at hl
    simp only [pairs]
    rw [List.pairwise_append]
    refine ⟨?_, ?_, ?_⟩
    · rw [List.pairwise_map]
      have : xs.Pairwise (fun a b => xs.idxOf a < xs.idxOf b) := by
        rw [List.pairwise_iff_getElem]
        intro i j hi hj hij
        rw [hl.2.idxOf_getElem, hl.2.idxOf_getElem]
        exact hij
      refine this.imp_of_mem ?_
      intro a b ha hb hab
      right
      have ha' : x ≠ a := by rintro rfl; exact hl.1 ha
      have hb' : x ≠ b := by rintro rfl; exact hl.1 hb
      refine ⟨rfl, ?_⟩
      simp only [List.idxOf_cons_ne _ ha', List.idxOf_cons_ne _ hb']
      omega
    · refine (ih hl.2).imp_of_mem ?_
      rintro ⟨a, b⟩ ⟨c, d⟩ h1 h2 h3
      obtain ⟨ha, hb⟩ := mem_pairs_mem h1
      obtain ⟨hc, hd⟩ := mem_pairs_mem h2
      have ha' : x ≠ a := by rintro rfl; exact hl.1 ha
      have hb' : x ≠ b := by rintro rfl; exact hl.1 hb
      have hc' : x ≠ c := by rintro rfl; exact hl.1 hc
      have hd' : x ≠ d := by rintro rfl; exact hl.1 hd
      unfold lexLt at *
      simp only [List.idxOf_cons_ne _ ha', List.idxOf_cons_ne _ hb', List.idxOf_cons_ne _ hc',
        List.idxOf_cons_ne _ hd'] at *
      omega
    · rintro ⟨a, b⟩ h1 ⟨c, d⟩ h2
      simp only [List.mem_map, Prod.mk.injEq] at h1
      obtain ⟨y, hy, rfl, rfl⟩ := h1
      obtain ⟨hc, hd⟩ := mem_pairs_mem h2
      left
      have hc' : x ≠ c := by rintro rfl; exact hl.1 hc
      simp only [List.idxOf_cons_self, List.idxOf_cons_ne _ hc']
      omega

/-- Every ordered pair of different elements is an index pair or the swap of one, exactly once. -/
theorem product_ne_perm {l : List α} (hl : l.Nodup) :
    ((l ×ˢ l).filter (fun p => p.1 ≠ p.2)).Perm (pairs l ++ (pairs l).map Prod.swap) := by
  have hs : ((pairs l).map Prod.swap).Nodup := (pairs_nodup hl).map (fun a b h => by
    simpa using congrArg Prod.swap h)
  rw [List.perm_ext_iff_of_nodup]
  · rintro ⟨a, b⟩
    simp only [List.mem_filter, List.mem_product, decide_eq_true_eq, List.mem_append, List.mem_map,
      Prod.exists, Prod.swap_prod_mk, Prod.mk.injEq]
    constructor
    · rintro ⟨⟨ha, hb⟩, hab⟩
      rcases pairs_complete ha hb hab with h | h
      · exact Or.inl h
      · exact Or.inr ⟨b, a, h, rfl, rfl⟩
    · rintro (h | ⟨c, d, h, rfl, rfl⟩)
      · exact ⟨mem_pairs_mem h, mem_pairs_ne hl h⟩
      · have := mem_pairs_mem h
        exact ⟨⟨this.2, this.1⟩, (mem_pairs_ne hl h).symm⟩
  · exact (hl.product hl).filter _
  · rw [List.nodup_append]
    refine ⟨pairs_nodup hl, hs, ?_⟩
    rintro ⟨a, b⟩ h1 ⟨c, d⟩ h2 heq
    rw [← heq] at h2
    simp only [List.mem_map, Prod.exists, Prod.swap_prod_mk, Prod.mk.injEq] at h2
    obtain ⟨x, y, hxy, rfl, rfl⟩ := h2
    exact pairs_asymm hl h1 hxy

end

namespace Graph
variable {α : Type} [DecidableEq α] {g : Graph α}

theorem edgesAux_ok (h : g.WF) (l : List (α × α)) (hl : ∀ p ∈ l, p.1 ∈ g.nodeList ∧ p.2 ∈ g.nodeList) :
    g.edgesAux l = .ok (l.filterMap (fun p => g.edge? p.1 p.2)) := by
  induction l with
  | nil => rfl
  | cons p t ih =>
    obtain ⟨u, v⟩ := p
    have := hl (u, v) (by simp)
    unfold edgesAux
    rw [getEdge_ok h this.1 this.2, ih (fun p hp => hl p (by simp [hp]))]
    simp only [bind, Except.bind, pure, Except.pure, List.filterMap_cons]
    cases g.edge? u v <;> rfl

/-- Pure form of `edges` (graph.py L70-77): proof device. -/
def edgeList (g : Graph α) : List (Edge α) := (pairs g.nodeList).filterMap (fun p => g.edge? p.1 p.2)

theorem edges_ok (h : g.WF) : g.edges = .ok g.edgeList :=
  edgesAux_ok h _ (fun p hp => mem_pairs_mem (a := p.1) (b := p.2) hp)

theorem edge?_eq_some {u v : α} {e : Edge α} :
    g.edge? u v = some e ↔ e.u = u ∧ e.v = v ∧ g.mark v u = some e.mu ∧ g.mark u v = some e.mv := by
  unfold edge?
  obtain ⟨a, b, c, d⟩ := e
  cases g.mark v u <;> cases g.mark u v <;> simp [eq_comm]

theorem mem_edgeList (h : g.WF) (e : Edge α) :
    e ∈ g.edgeList ↔ e.u ∈ g.nodeList ∧ e.v ∈ g.nodeList ∧ g.nodeList.idxOf e.u < g.nodeList.idxOf e.v ∧
      g.mark e.v e.u = some e.mu ∧ g.mark e.u e.v = some e.mv := by
  unfold edgeList
  simp only [List.mem_filterMap, Prod.exists, edge?_eq_some]
  constructor
  · rintro ⟨a, b, hab, rfl, rfl, h1, h2⟩
    rw [mem_pairs_iff h.nodup] at hab
    exact ⟨hab.1, hab.2.1, hab.2.2, h1, h2⟩
  · rintro ⟨h1, h2, h3, h4, h5⟩
    exact ⟨e.u, e.v, (mem_pairs_iff h.nodup _ _).2 ⟨h1, h2, h3⟩, rfl, rfl, h4, h5⟩

theorem edgeList_sorted (h : g.WF) :
    g.edgeList.Pairwise (fun e f => lexLt g.nodeList (e.u, e.v) (f.u, f.v)) := by
  unfold edgeList
  rw [List.pairwise_filterMap]
  refine (pairs_sorted h.nodup).imp ?_
  intro p q hpq e he f hf
  rw [edge?_eq_some] at he hf
  rw [he.1, he.2.1, hf.1, hf.2.1]
  exact hpq

theorem filter_isSome_length {β γ : Type _} (l : List β) (f : β → Option γ) (q : β → Bool)
    (hq : ∀ x ∈ l, (f x).isSome = q x) : (l.filterMap f).length = (l.filter q).length := by
  induction l with
  | nil => rfl
  | cons x t ih =>
    have h1 := hq x (by simp)
    have h2 := ih (fun y hy => hq y (by simp [hy]))
    rw [List.filterMap_cons, List.filter_cons]
    cases hx : f x with
    | none => rw [hx] at h1; simp [← h1, h2]
    | some y => rw [hx] at h1; simp [← h1, h2]

theorem edgeList_length (h : g.WF) :
    2 * g.edgeList.length =
      ((g.nodeList ×ˢ g.nodeList).filter (fun p => p.1 ≠ p.2 ∧ (g.mark p.1 p.2).isSome = true)).length := by
  have e0 : (g.nodeList ×ˢ g.nodeList).filter (fun p => p.1 ≠ p.2 ∧ (g.mark p.1 p.2).isSome = true) =
      ((g.nodeList ×ˢ g.nodeList).filter (fun p => p.1 ≠ p.2)).filter (fun p => (g.mark p.1 p.2).isSome) := by
    rw [List.filter_filter]
    apply List.filter_congr
    intro p _
    simp [Bool.and_comm]
  rw [e0]
  have hp := (product_ne_perm h.nodup).filter (fun p => (g.mark p.1 p.2).isSome)
  rw [hp.length_eq, List.filter_append, List.length_append, List.filter_map, List.length_map]
  have e1 : ((pairs g.nodeList).filter ((fun p => (g.mark p.1 p.2).isSome) ∘ Prod.swap)) =
      (pairs g.nodeList).filter (fun p => (g.mark p.1 p.2).isSome) := by
    apply List.filter_congr
    intro p _
    simp [h.symm_iff p.2 p.1]
  rw [e1]
  have e2 : g.edgeList.length = ((pairs g.nodeList).filter (fun p => (g.mark p.1 p.2).isSome)).length := by
    unfold edgeList
    apply filter_isSome_length
    intro p _
    exact edge?_isSome h p.1 p.2
  omega

/-! ### the numeric matrix -/

theorem toNumpyCol_ok (g : Graph α) (i : Nat) (d : Dict α Mark) (m : IMat) (hd : ∀ v ∈ dkeys d, v ∈ g.nodeList)
    (hn : (dkeys d).Nodup) :
    ∃ m', g.toNumpyCol i d m = .ok m' ∧ (∀ r c, c ≠ i → m' r c = m r c) ∧
      (∀ r, (∀ v ∈ dkeys d, g.nodeList.idxOf v ≠ r) → m' r i = m r i) ∧
      (∀ v x, dget d v = some x → m' (g.nodeList.idxOf v) i = x.toInt) := by
  induction d generalizing m with
  | nil => exact ⟨m, rfl, fun _ _ _ => rfl, fun _ _ => rfl, by simp⟩
  | cons p t ih =>
    obtain ⟨k, x⟩ := p
    simp only [dkeys, List.map_cons, List.mem_cons, List.nodup_cons] at hd hn
    obtain ⟨m', h1, h2, h3, h4⟩ := ih (m.put (g.nodeList.idxOf k) i x.toInt) (fun v hv => hd v (Or.inr hv)) hn.2
    refine ⟨m', ?_, ?_, ?_, ?_⟩
    · unfold toNumpyCol nodeIndex
      rw [if_pos (hd k (Or.inl rfl))]
      exact h1
    · intro r c hc
      rw [h2 r c hc]
      simp [IMat.put, hc]
    · intro r hr
      simp only [dkeys, List.map_cons, List.mem_cons] at hr
      rw [h3 r (fun v hv => hr v (Or.inr hv))]
      have : r ≠ g.nodeList.idxOf k := fun h => hr k (Or.inl rfl) h.symm
      simp [IMat.put, this]
    · intro v y hv
      rw [dget_cons] at hv
      split_ifs at hv with hkv
      · subst hkv
        simp only [Option.some.injEq] at hv
        subst hv
        have hne : ∀ w ∈ dkeys t, g.nodeList.idxOf w ≠ g.nodeList.idxOf k := by
          intro w hw heq
          have hw' : w ∈ g.nodeList := hd w (Or.inr hw)
          have := (List.idxOf_inj hw').1 heq
          subst this
          exact hn.1 hw
        rw [h3 _ hne]
        simp [IMat.put]
      · exact h4 v y hv

theorem toNumpyLoop_ok (h : g.WF) (i : Nat) (l : List α) (m : IMat) (hl : ∀ u ∈ l, u ∈ g.nodeList)
    (hi : ∀ j (hj : j < l.length), g.nodeList.idxOf l[j] = i + j) :
    ∃ m', g.toNumpyLoop i l m = .ok m' ∧ (∀ r c, (∀ u ∈ l, g.nodeList.idxOf u ≠ c) → m' r c = m r c) ∧
      (∀ u ∈ l, ∀ v ∈ g.nodeList, m' (g.nodeList.idxOf v) (g.nodeList.idxOf u) =
        match g.mark u v with
        | some x => x.toInt
        | none => m (g.nodeList.idxOf v) (g.nodeList.idxOf u)) := by
  induction l generalizing i m with
  | nil => exact ⟨m, rfl, fun _ _ _ => rfl, by simp⟩
  | cons u t ih =>
    have hu := hl u (by simp)
    obtain ⟨au, hau⟩ := h.adj_some hu
    have hiu : g.nodeList.idxOf u = i := hi 0 (by simp)
    have hmk : ∀ v, g.mark u v = dget au v := by intro v; simp [mark, hau]
    obtain ⟨m1, h1, h2, h3, h4⟩ := toNumpyCol_ok g i au m
      (fun v hv => h.mark_right (u := u) (by rw [hmk]; exact (mem_dkeys_iff _ _).1 hv)) (h.inner _ _ hau)
    obtain ⟨m', k1, k2, k3⟩ := ih (i + 1) m1 (fun v hv => hl v (by simp [hv]))
      (fun j hj => by have := hi (j + 1) (by simpa using hj); simp at this; omega)
    have hnotin : ∀ w ∈ t, g.nodeList.idxOf w ≠ i := by
      intro w hw
      obtain ⟨j, hj, rfl⟩ := List.getElem_of_mem hw
      have := hi (j + 1) (by simpa using hj)
      simp at this
      omega
    refine ⟨m', ?_, ?_, ?_⟩
    · unfold toNumpyLoop
      rw [dgetE_of _ _ _ hau]
      simp only [bind, Except.bind, h1]
      exact k1
    · intro r c hc
      rw [k2 r c (fun w hw => hc w (by simp [hw])), h2 r c (fun hh => hc u (by simp) (by omega))]
    · intro w hw v hv
      rcases List.mem_cons.1 hw with rfl | hw
      · rw [hiu, k2 _ i hnotin, hmk]
        cases hx : dget au v with
        | some x => exact h4 v x hx
        | none =>
          apply h3
          intro y hy heq
          have hy' : y ∈ g.nodeList := h.mark_right (u := w) (by rw [hmk]; exact (mem_dkeys_iff _ _).1 hy)
          have := (List.idxOf_inj hy').1 heq
          subst this
          rw [mem_dkeys_iff, hx] at hy
          simp at hy
      · rw [k3 w hw v hv]
        cases g.mark w v with
        | some x => rfl
        | none => exact h2 _ _ (hnotin w hw)

theorem toNumpy_ok (h : g.WF) :
    ∃ m, g.toNumpy = .ok m ∧ g.toNumpy true = .ok (fun r c => m c r) ∧
      ∀ u ∈ g.nodeList, ∀ v ∈ g.nodeList, m (g.nodeList.idxOf v) (g.nodeList.idxOf u) =
        match g.mark u v with
        | some x => x.toInt
        | none => 0 := by
  obtain ⟨m, h1, _, h3⟩ := toNumpyLoop_ok h 0 g.nodeList (fun _ _ => 0) (fun u hu => hu)
    (fun j hj => by rw [h.nodup.idxOf_getElem]; omega)
  refine ⟨m, ?_, ?_, fun u hu v hv => h3 u hu v hv⟩
  · unfold toNumpy; rw [h1]; rfl
  · unfold toNumpy; rw [h1]; rfl

end Graph
end Cdmir
