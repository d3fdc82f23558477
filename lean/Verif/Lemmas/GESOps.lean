import Verif.Lemmas.GESBest

/-! The effect of the two operators of GES on the edges. -/

namespace Cdmir
namespace GES
open Graph Spec
variable {α : Type} [DecidableEq α] {g : Graph α}

/-- `g'` has the nodes of `g`, the directed edges `D` and the undirected edges `U`: proof device. -/
structure Eff (g g' : Graph α) (D U : α → α → Prop) : Prop where
  du : DU g'
  nodes : g'.nodeList = g.nodeList
  dir : ∀ a b, Dir g' a b ↔ D a b
  und : ∀ a b, Und g' a b ↔ U a b

/-- The unordered pair `{a, b}` is `{u, v}`: proof device. -/
def Same (u v a b : α) : Prop := (a = u ∧ b = v) ∨ (a = v ∧ b = u)

theorem eff_of_marks (h : DU g) {g' : Graph α} (hv : Via g g') (hn : g'.nodeList = g.nodeList) {D U : α → α → Prop}
    (hd : ∀ a b, Dir g' a b ↔ D a b) (hu : ∀ a b, Und g' a b ↔ U a b)
    (hc : ∀ a b, Conn g' a b → D a b ∨ D b a ∨ U a b) : Eff g g' D U :=
  ⟨⟨hv.reachableSimple h.rs, fun u v k => by rw [hd, hd, hu]; exact hc u v k⟩, hn, hd, hu⟩

theorem drop_eff (h : DU g) {u v : α} (hu : u ∈ g.nodeList) (hv : v ∈ g.nodeList) :
    ∃ g', dropIf g u v = .ok g' ∧
      Eff g g' (fun a b => Dir g a b ∧ ¬ Same u v a b) (fun a b => Und g a b ∧ ¬ Same u v a b) := by
  have hw := h.wf
  unfold dropIf
  rw [getEdge_ok hw hu hv]
  simp only [bind, Except.bind]
  rw [edge?_isSome hw]
  by_cases c : (g.mark u v).isSome
  · rw [if_pos c]
    have er := removeEdge_ok hw hu hv
    rw [if_pos c] at er
    have via := Via.removeEdge er
    have hw' := (via.reachableSimple h.rs).toReachable.good'.1.wf
    refine ⟨_, er, eff_of_marks h via rfl ?_ ?_ ?_⟩
    · intro a b
      rw [dir_iff hw', dir_iff hw, mark_drop hw, mark_drop hw]
      unfold Same
      by_cases s : (a = u ∧ b = v) ∨ (a = v ∧ b = u)
      · simp [s]
      · have s' : ¬ ((b = u ∧ a = v) ∨ (b = v ∧ a = u)) := by tauto
        simp [s, s']
    · intro a b
      rw [und_iff hw', und_iff hw, mark_drop hw, mark_drop hw]
      unfold Same
      by_cases s : (a = u ∧ b = v) ∨ (a = v ∧ b = u)
      · simp [s]
      · have s' : ¬ ((b = u ∧ a = v) ∨ (b = v ∧ a = u)) := by tauto
        simp [s, s']
    · intro a b k
      rw [conn_iff hw', mark_drop hw] at k
      by_cases s : (a = u ∧ b = v) ∨ (a = v ∧ b = u)
      · simp [s] at k
      · rw [if_neg s, ← conn_iff hw] at k
        have s1 : ¬ Same u v a b := s
        have s2 : ¬ Same u v b a := by unfold Same; tauto
        have := h.du a b k
        tauto
  · rw [if_neg c]
    have nc : ∀ a b, Same u v a b → ¬ Conn g a b := by
      rintro a b (⟨rfl, rfl⟩ | ⟨rfl, rfl⟩) k
      · exact c ((conn_iff hw _ _).1 k)
      · exact c ((conn_iff hw _ _).1 (Conn.symm hw k))
    refine ⟨g, rfl, h, rfl, ?_, ?_⟩
    · exact fun a b => ⟨fun k => ⟨k, fun s => nc a b s (Dir.conn hw k)⟩, fun k => k.1⟩
    · exact fun a b => ⟨fun k => ⟨k, fun s => nc a b s (Und.conn hw k)⟩, fun k => k.1⟩

theorem put_eff (h : DU g) {u v : α} (hu : u ∈ g.nodeList) (hv : v ∈ g.nodeList) (hne : u ≠ v) :
    ∃ g', g.addEdge ⟨u, v, .tail, .arrow⟩ true = .ok g' ∧
      Eff g g' (fun a b => (a = u ∧ b = v) ∨ (Dir g a b ∧ ¬ Same u v a b)) (fun a b => Und g a b ∧ ¬ Same u v a b) := by
  have hw := h.wf
  have ea := addEdge_ok (g := g) (e := ⟨u, v, .tail, .arrow⟩) (ow := true) hw
    (by rw [h.rs.toReachable.good'.2]; simp [marksOk]) hu hv (Or.inl rfl)
  have via := Via.addEdge hne ea
  have hw' := (via.reachableSimple h.rs).toReachable.good'.1.wf
  have m1 : ∀ a b, (g.put ⟨u, v, .tail, .arrow⟩).mark a b =
      if a = v ∧ b = u then some .tail else if a = u ∧ b = v then some .arrow else g.mark a b := fun a b => mark_put _ _ _ _
  refine ⟨_, ea, eff_of_marks h via rfl ?_ ?_ ?_⟩
  · intro a b
    rw [dir_iff hw', m1, m1, dir_iff hw]
    unfold Same
    by_cases c1 : a = u ∧ b = v
    · obtain ⟨rfl, rfl⟩ := c1
      simp [hne]
    · by_cases c2 : a = v ∧ b = u
      · obtain ⟨rfl, rfl⟩ := c2
        simp [hne]
      · have c1' : ¬ (b = v ∧ a = u) := by tauto
        have c2' : ¬ (b = u ∧ a = v) := by tauto
        simp [c1, c2, c1', c2']
  · intro a b
    rw [und_iff hw', m1, m1, und_iff hw]
    unfold Same
    by_cases c1 : a = u ∧ b = v
    · obtain ⟨rfl, rfl⟩ := c1
      simp [hne]
    · by_cases c2 : a = v ∧ b = u
      · obtain ⟨rfl, rfl⟩ := c2
        simp [hne]
      · have c1' : ¬ (b = v ∧ a = u) := by tauto
        have c2' : ¬ (b = u ∧ a = v) := by tauto
        simp [c1, c2, c1', c2']
  · intro a b k
    by_cases s : Same u v a b
    · rcases s with s | s
      · exact Or.inl (Or.inl s)
      · exact Or.inr (Or.inl (Or.inl ⟨s.2, s.1⟩))
    · have s2 : ¬ Same u v b a := by unfold Same at s ⊢; tauto
      have k' : Conn g a b := by
        rw [conn_iff hw', m1, if_neg (fun q => s (Or.inr q)), if_neg (fun q => s (Or.inl q)), ← conn_iff hw] at k
        exact k
      have := h.du a b k'
      tauto

theorem Eff.congr {g' : Graph α} {D U D' U' : α → α → Prop} (h : Eff g g' D U) (hd : ∀ a b, D a b ↔ D' a b)
    (hu : ∀ a b, U a b ↔ U' a b) : Eff g g' D' U' :=
  ⟨h.du, h.nodes, fun a b => (h.dir a b).trans (hd a b), fun a b => (h.und a b).trans (hu a b)⟩

/-- Directed edges after `Insert(i, j, T)`. -/
def insD (g : Graph α) (i j : α) (T : List α) (a b : α) : Prop := Dir g a b ∨ (b = j ∧ (a = i ∨ a ∈ T))

/-- Undirected edges after `Insert(i, j, T)`. -/
def insU (g : Graph α) (j : α) (T : List α) (a b : α) : Prop := Und g a b ∧ ¬ (b = j ∧ a ∈ T) ∧ ¬ (a = j ∧ b ∈ T)

theorem insertOp_eff (h : DU g) {i j : α} (hi : i ∈ g.nodeList) (hj : j ∈ g.nodeList) (hne : i ≠ j) (hc : ¬ Conn g i j)
    {T : List α} (hT : ∀ t ∈ T, Und g t j) : ∃ g', insertOp g i j T = .ok g' ∧ Eff g g' (insD g i j T) (insU g j T) := by
  have hw := h.wf
  unfold insertOp
  obtain ⟨g1, e1, f1⟩ := put_eff h hi hj hne
  rw [e1]
  simp only [bind, Except.bind]
  have nodir : ∀ t ∈ T, ¬ Dir g j t ∧ ¬ Dir g t j := by
    intro t ht
    have := hT t ht
    rw [und_iff hw] at this
    rw [dir_iff hw, dir_iff hw, this.1, this.2]
    simp
  have key := foldlM_pre (P := fun pre s => Eff g s (insD g i j pre) (insU g j pre))
    (f := fun (s : Graph α) k => do
      let s ← dropIf s k j
      s.addEdge ⟨k, j, .tail, .arrow⟩ true) T (by
      intro pre t s hp hs
      have ht : t ∈ T := hp.subset (by simp)
      have hpre : ∀ x ∈ pre, x ∈ T := fun x hx => hp.subset (by simp [hx])
      have tj : t ≠ j := h.ne (Und.conn hw (hT t ht))
      have htn : t ∈ g.nodeList := (Conn.mem hw (Und.conn hw (hT t ht))).1
      obtain ⟨s1, d1, d2⟩ := drop_eff hs.du (u := t) (v := j) (by rw [hs.nodes]; exact htn) (by rw [hs.nodes]; exact hj)
      obtain ⟨s2, p1, p2⟩ := put_eff d2.du (u := t) (v := j) (by rw [d2.nodes, hs.nodes]; exact htn)
        (by rw [d2.nodes, hs.nodes]; exact hj) tj
      rw [d1]
      refine ⟨s2, p1, p2.du, by rw [p2.nodes, d2.nodes, hs.nodes], fun a b => ?_, fun a b => ?_⟩
      · rw [p2.dir, d2.dir, hs.dir]
        unfold insD Same
        simp only [List.mem_append, List.mem_singleton]
        have := nodir t ht
        constructor
        · rintro (⟨rfl, rfl⟩ | ⟨⟨k | k, _⟩, _⟩)
          · exact Or.inr ⟨rfl, Or.inr (Or.inr rfl)⟩
          · exact Or.inl k
          · exact Or.inr ⟨k.1, k.2.imp id Or.inl⟩
        · rintro (k | ⟨rfl, k | k | k⟩)
          · by_cases c1 : (a = t ∧ b = j) ∨ (a = j ∧ b = t)
            · rcases c1 with ⟨rfl, rfl⟩ | ⟨rfl, rfl⟩
              · exact absurd k this.2
              · exact absurd k this.1
            · exact Or.inr ⟨⟨Or.inl k, c1⟩, c1⟩
          · by_cases c1 : a = t
            · exact Or.inl ⟨c1, rfl⟩
            · have : ¬ ((a = t ∧ b = b) ∨ (a = b ∧ b = t)) := by
                rintro (q | q)
                · exact c1 q.1
                · exact tj q.2.symm
              exact Or.inr ⟨⟨Or.inr ⟨rfl, Or.inl k⟩, this⟩, this⟩
          · by_cases c1 : a = t
            · exact Or.inl ⟨c1, rfl⟩
            · have : ¬ ((a = t ∧ b = b) ∨ (a = b ∧ b = t)) := by
                rintro (q | q)
                · exact c1 q.1
                · exact tj q.2.symm
              exact Or.inr ⟨⟨Or.inr ⟨rfl, Or.inr k⟩, this⟩, this⟩
          · exact Or.inl ⟨k, rfl⟩
      · rw [p2.und, d2.und, hs.und]
        unfold insU Same
        simp only [List.mem_append, List.mem_singleton]
        tauto) g1 (f1.congr (fun a b => by
          unfold insD Same
          constructor
          · rintro (⟨rfl, rfl⟩ | k)
            · exact Or.inr ⟨rfl, Or.inl rfl⟩
            · exact Or.inl k.1
          · rintro (k | ⟨rfl, k | k⟩)
            · refine Or.inr ⟨k, ?_⟩
              rintro (⟨rfl, rfl⟩ | ⟨rfl, rfl⟩)
              · exact hc (Dir.conn hw k)
              · exact hc (Conn.symm hw (Dir.conn hw k))
            · exact Or.inl ⟨k, rfl⟩
            · simp at k) (fun a b => by
          unfold insU Same
          constructor
          · intro k; exact ⟨k.1, by simp, by simp⟩
          · intro k
            refine ⟨k.1, ?_⟩
            rintro (⟨rfl, rfl⟩ | ⟨rfl, rfl⟩)
            · exact hc (Und.conn hw k.1)
            · exact hc (Conn.symm hw (Und.conn hw k.1))))
  exact key

/-- Directed edges after `Delete(i, j, H)`. -/
def delD (g : Graph α) (i j : α) (H : List α) (a b : α) : Prop :=
  (Dir g a b ∧ ¬ Same i j a b ∧ ¬ (a ∈ H ∧ b = i)) ∨ (b ∈ H ∧ (a = i ∨ a = j))

/-- Undirected edges after `Delete(i, j, H)`. -/
def delU (g : Graph α) (i j : α) (H : List α) (a b : α) : Prop :=
  Und g a b ∧ ¬ Same i j a b ∧ ¬ (a ∈ H ∧ (b = i ∨ b = j)) ∧ ¬ (b ∈ H ∧ (a = i ∨ a = j))

theorem deleteOp_eff (h : DU g) {i j : α} (hi : i ∈ g.nodeList) (hj : j ∈ g.nodeList) (hne : i ≠ j)
    {H : List α} (hH : ∀ t ∈ H, NA g i j t) : ∃ g', deleteOp g i j H = .ok g' ∧ Eff g g' (delD g i j H) (delU g i j H) := by
  have hw := h.wf
  unfold deleteOp
  obtain ⟨g1, e1, f1⟩ := drop_eff h hi hj
  have key := foldlM_pre (P := fun pre s => Eff g s (delD g i j pre) (delU g i j pre))
    (f := fun (s : Graph α) k => do
      let s ← dropIf s j k
      let s ← dropIf s i k
      let s ← s.addEdge ⟨j, k, .tail, .arrow⟩ true
      s.addEdge ⟨i, k, .tail, .arrow⟩ true) H (by
      intro pre t s hp hs
      have ht : t ∈ H := hp.subset (by simp)
      have hpre : ∀ x ∈ pre, x ∈ H := fun x hx => hp.subset (by simp [hx])
      have tj : j ≠ t := (h.ne (Und.conn hw (hH t ht).1)).symm
      have ti : i ≠ t := h.ne (hH t ht).2
      have pj : j ∉ pre := fun k => h.ne (Und.conn hw (hH j (hpre j k)).1) rfl
      have pi : i ∉ pre := fun k => h.ne (hH i (hpre i k)).2 rfl
      have htn : t ∈ g.nodeList := (Conn.mem hw (Und.conn hw (hH t ht).1)).1
      have nodir : ¬ Dir g j t ∧ ¬ Dir g t j := by
        have := (hH t ht).1
        rw [und_iff hw] at this
        rw [dir_iff hw, dir_iff hw, this.1, this.2]
        simp
      have mem : ∀ {s' : Graph α}, s'.nodeList = g.nodeList → i ∈ s'.nodeList ∧ j ∈ s'.nodeList ∧ t ∈ s'.nodeList :=
        fun e => by rw [e]; exact ⟨hi, hj, htn⟩
      have m0 := mem hs.nodes
      obtain ⟨s1, d1, d2⟩ := drop_eff hs.du m0.2.1 m0.2.2
      have m1 := mem (d2.nodes.trans hs.nodes)
      obtain ⟨s2, d3, d4⟩ := drop_eff d2.du m1.1 m1.2.2
      have m2 := mem (d4.nodes.trans (d2.nodes.trans hs.nodes))
      obtain ⟨s3, p1, p2⟩ := put_eff d4.du m2.2.1 m2.2.2 tj
      have m3 := mem (p2.nodes.trans (d4.nodes.trans (d2.nodes.trans hs.nodes)))
      obtain ⟨s4, p3, p4⟩ := put_eff p2.du m3.1 m3.2.2 ti
      rw [d1]
      simp only [bind, Except.bind, d3, p1]
      refine ⟨s4, p3, p4.du, by rw [p4.nodes, p2.nodes, d4.nodes, d2.nodes, hs.nodes], fun a b => ?_, fun a b => ?_⟩
      · rw [p4.dir, p2.dir, d4.dir, d2.dir, hs.dir]
        unfold delD Same
        simp only [List.mem_append, List.mem_singleton]
        grind
      · rw [p4.und, p2.und, d4.und, d2.und, hs.und]
        unfold delU Same
        simp only [List.mem_append, List.mem_singleton]
        grind) g1 (f1.congr (fun a b => by
          unfold delD
          simp) (fun a b => by
          unfold delU
          simp))
  rw [e1]
  exact key

end GES
end Cdmir
