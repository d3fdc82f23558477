import Verif.Model.PDAG
import Verif.Spec.PDAG
import Verif.Spec.Reach
import Verif.Lemmas.Fold
import Verif.Lemmas.Reach
import Verif.Lemmas.Edges
import Verif.Lemmas.DiGraph

/-! Orientation steps on partially directed graphs. -/

namespace Cdmir
namespace Graph
variable {α : Type} [DecidableEq α]

/-- Invariant of PDAG objects: proof device. -/
structure PG (g : Graph α) : Prop where
  good : g.Good
  kind : g.kind = .pdag

theorem PG.wf {g : Graph α} (h : g.PG) : g.WF := h.good.wf

/-- `g'` arises from `g` by public operations without self-loop requests: proof device. -/
def Via (g g' : Graph α) : Prop := ∃ ops : List (Op α), (∀ o ∈ ops, ∀ e ∈ o.edgeArgs, e.u ≠ e.v) ∧ g' = g.run ops

theorem Via.refl (g : Graph α) : Via g g := ⟨[], by simp, rfl⟩

theorem Via.trans {g1 g2 g3 : Graph α} (h : Via g1 g2) (h' : Via g2 g3) : Via g1 g3 := by
  obtain ⟨o1, p1, rfl⟩ := h
  obtain ⟨o2, p2, rfl⟩ := h'
  refine ⟨o1 ++ o2, ?_, ?_⟩
  · intro o ho
    rcases List.mem_append.1 ho with h | h
    · exact p1 o h
    · exact p2 o h
  · unfold run; rw [List.foldl_append]

theorem Via.good {g g' : Graph α} (h : Via g g') (hg : g.Good) : g'.Good ∧ g'.kind = g.kind := by
  obtain ⟨o, _, rfl⟩ := h
  exact run_good hg o

theorem Via.noLoop {g g' : Graph α} (h : Via g g') (hg : g.Good) (hn : g.NoLoop) : g'.NoLoop := by
  obtain ⟨ops, hs, rfl⟩ := h
  refine run_noLoop hg hn ops (fun o ho e he => hs o ho e ?_)
  cases o <;> exact he

theorem Via.reachable {k : Kind} {g g' : Graph α} (h : Via g g') (hg : Reachable k g) : Reachable k g' := by
  obtain ⟨o, _, rfl⟩ := h
  obtain ⟨l, g0, ops, h0, rfl⟩ := hg
  exact ⟨l, g0, ops ++ o, h0, by unfold run; rw [List.foldl_append]⟩

theorem Via.reachableSimple {k : Kind} {g g' : Graph α} (h : Via g g') (hg : ReachableSimple k g) :
    ReachableSimple k g' := by
  obtain ⟨o, p, rfl⟩ := h
  obtain ⟨l, g0, ops, h0, q, rfl⟩ := hg
  refine ⟨l, g0, ops ++ o, h0, ?_, by unfold run; rw [List.foldl_append]⟩
  intro o' ho
  rcases List.mem_append.1 ho with h | h
  · exact q _ h
  · exact p _ h

theorem Via.PG {g g' : Graph α} (h : Via g g') (hg : g.PG) : g'.PG :=
  ⟨(h.good hg.good).1, (h.good hg.good).2.trans hg.kind⟩

theorem Via.addEdge {g g' : Graph α} {e : Edge α} {ow : Bool} (hne : e.u ≠ e.v) (h : g.addEdge e ow = .ok g') :
    Via g g' := by
  refine ⟨[.addEdge e ow], ?_, ?_⟩
  · intro o ho e' he'
    simp only [List.mem_singleton] at ho
    subst ho
    simp only [Op.edgeArgs, List.mem_singleton] at he'
    subst he'
    exact hne
  · simp only [run, List.foldl_cons, List.foldl_nil, step, h]

theorem Via.removeEdge {g g' : Graph α} {u v : α} (h : g.removeEdge u v = .ok g') : Via g g' := by
  refine ⟨[.removeEdge u v], ?_, ?_⟩
  · intro o ho e' he'
    simp only [List.mem_singleton] at ho
    subst ho
    simp [Op.edgeArgs] at he'
  · simp only [run, List.foldl_cons, List.foldl_nil, step, h]

variable {g g' g1 g2 : Graph α}

theorem und_iff (h : g.WF) (u v : α) : Und g u v ↔ g.mark v u = some .tail ∧ g.mark u v = some .tail := by
  unfold Und
  by_cases huv : u ∈ g.nodeList ∧ v ∈ g.nodeList
  · rw [getEdge_ok h huv.1 huv.2]
    unfold edge?
    cases g.mark v u <;> cases g.mark u v <;> simp
  · rw [getEdge_err h huv]
    constructor
    · intro hh; cases hh
    · rintro ⟨_, h2⟩
      have : (g.mark u v).isSome := by rw [h2]; rfl
      exact absurd ⟨h.mark_left this, h.mark_right this⟩ huv

theorem conn_iff (h : g.WF) (u v : α) : Conn g u v ↔ (g.mark u v).isSome := by
  unfold Conn
  rw [isConnected_ok_iff h]
  exact ⟨fun hh => hh.2.2.symm, fun hs => ⟨h.mark_left hs, h.mark_right hs, hs.symm⟩⟩

theorem _root_.Cdmir.Conn.mem (h : g.WF) {u v : α} (hc : Conn g u v) : u ∈ g.nodeList ∧ v ∈ g.nodeList := by
  rw [conn_iff h] at hc; exact ⟨h.mark_left hc, h.mark_right hc⟩

theorem _root_.Cdmir.Conn.symm (h : g.WF) {u v : α} (hc : Conn g u v) : Conn g v u := by
  rw [conn_iff h] at *; exact h.symm _ _ hc

theorem conn_comm (h : g.WF) (u v : α) : Conn g u v ↔ Conn g v u := ⟨Conn.symm h, Conn.symm h⟩

theorem _root_.Cdmir.Und.symm (h : g.WF) {u v : α} (hc : Und g u v) : Und g v u := by
  rw [und_iff h] at *; exact ⟨hc.2, hc.1⟩

theorem _root_.Cdmir.Und.conn (h : g.WF) {u v : α} (hc : Und g u v) : Conn g u v := by
  rw [und_iff h] at hc; rw [conn_iff h, hc.2]; rfl

theorem Dir.conn (h : g.WF) {u v : α} (hc : Dir g u v) : Conn g u v := by
  rw [dir_iff h] at hc; rw [conn_iff h, hc.2]; rfl

theorem Dir.ne (h : g.WF) {u v : α} (hc : Dir g u v) : u ≠ v := by
  rintro rfl; exact Dir.asymm h hc hc

theorem Dir.not_und (h : g.WF) {u v : α} (hc : Dir g u v) : ¬ Und g u v := by
  rw [dir_iff h] at hc; rw [und_iff h, hc.2]; simp

open Classical in
theorem fd_dec (h : g.WF) {u v : α} (hu : u ∈ g.nodeList) (hv : v ∈ g.nodeList) :
    g.isFullyDirected u v = .ok (decide (Dir g u v)) := by
  rw [isFullyDirected_ok h hu hv]; congr 1; simp only [dir_iff h]

open Classical in
theorem fu_dec (h : g.WF) {u v : α} (hu : u ∈ g.nodeList) (hv : v ∈ g.nodeList) :
    g.isFullyUndirected u v = .ok (decide (Und g u v)) := by
  rw [isFullyUndirected_ok h hu hv]; congr 1; simp only [und_iff h]

open Classical in
theorem ic_dec (h : g.WF) {u v : α} (hu : u ∈ g.nodeList) (hv : v ∈ g.nodeList) :
    g.isConnected u v = .ok (decide (Conn g u v)) := by
  rw [isConnected_ok h hu hv]; congr 1; rw [Bool.eq_iff_iff, decide_eq_true_eq, conn_iff h]

open Classical in
theorem utd_dec (h : g.WF) {u v w : α} (hu : u ∈ g.nodeList) (hv : v ∈ g.nodeList) (hw : w ∈ g.nodeList) :
    g.undThenDir u v w = .ok (decide (Und g u v ∧ Dir g v w)) := by
  unfold undThenDir
  rw [fu_dec h hu hv, fd_dec h hv hw]
  by_cases c : Und g u v <;> simp [c, bind, Except.bind, pure, Except.pure]

/-- The edge between `a` and `b` becomes `a -> b`, everything else stays: proof device. -/
structure OTo (g g' : Graph α) (a b : α) : Prop where
  via : Via g g'
  nodes : g'.nodeList = g.nodeList
  mark : ∀ x y, g'.mark x y =
    if x = a ∧ y = b then some .arrow else if x = b ∧ y = a then some .tail else g.mark x y

theorem orient_ok (h : g.PG) {a b : α} (ha : a ∈ g.nodeList) (hb : b ∈ g.nodeList) (hab : a ≠ b) :
    ∃ g', g.orient a b = .ok g' ∧ OTo g g' a b := by
  have hw := h.wf
  have e1 := removeEdge_ok hw ha hb
  have hg1 : ∃ g1, g.removeEdge a b = .ok g1 ∧ g1.PG ∧ g1.nodeList = g.nodeList ∧
      ∀ x y, g1.mark x y = if (x = a ∧ y = b) ∨ (x = b ∧ y = a) then none else g.mark x y := by
    by_cases hs : (g.mark a b).isSome
    · rw [if_pos hs] at e1
      exact ⟨_, e1, (Via.removeEdge e1).PG h, rfl, mark_drop hw a b⟩
    · rw [if_neg hs] at e1
      refine ⟨_, e1, h, rfl, fun x y => ?_⟩
      split_ifs with c
      · have hs' : ¬ (g.mark b a).isSome := by rwa [hw.symm_iff a b] at hs
        rcases c with ⟨rfl, rfl⟩ | ⟨rfl, rfl⟩
        · simpa using hs
        · simpa using hs'
      · rfl
  obtain ⟨g1, e1, p1, n1, m1⟩ := hg1
  have e2 : g1.addEdge ⟨a, b, .tail, .arrow⟩ = .ok (g1.put ⟨a, b, .tail, .arrow⟩) := by
    refine addEdge_ok p1.wf ?_ (by rw [n1]; exact ha) (by rw [n1]; exact hb) (Or.inr ?_)
    · rw [p1.kind]; simp [marksOk]
    · rw [m1]; simp
  refine ⟨g1.put ⟨a, b, .tail, .arrow⟩, ?_, (Via.removeEdge e1).trans (Via.addEdge hab e2), n1, ?_⟩
  · unfold orient; rw [e1]; exact e2
  · intro x y
    rw [mark_put]
    simp only
    by_cases c1 : x = b ∧ y = a
    · have c2 : ¬ (x = a ∧ y = b) := by rintro ⟨rfl, rfl⟩; exact hab c1.1
      rw [if_pos c1, if_neg c2, if_pos c1]
    · by_cases c2 : x = a ∧ y = b
      · rw [if_neg c1, if_pos c2, if_pos c2]
      · rw [if_neg c1, if_neg c2, if_neg c2, if_neg c1, m1, if_neg (by tauto)]

namespace OTo
variable {a b : α}

theorem PG (h : OTo g g' a b) (hg : g.PG) : g'.PG := h.via.PG hg

theorem dir_self (h : OTo g g' a b) (hg : g.PG) (hab : a ≠ b) : Dir g' a b := by
  rw [dir_iff (h.PG hg).wf, h.mark, h.mark]
  simp [Ne.symm hab]

theorem conn (h : OTo g g' a b) (hg : g.PG) (hc : Conn g a b) (x y : α) : Conn g' x y ↔ Conn g x y := by
  rw [conn_iff (h.PG hg).wf, conn_iff hg.wf, h.mark]
  split_ifs with c1 c2
  · obtain ⟨rfl, rfl⟩ := c1; rw [conn_iff hg.wf] at hc; simp [hc]
  · obtain ⟨rfl, rfl⟩ := c2; rw [conn_iff hg.wf, hg.wf.symm_iff] at hc; simp [hc]
  · rfl

theorem dir_other (h : OTo g g' a b) (hg : g.PG) {x y : α} (h1 : ¬ (x = a ∧ y = b)) (h2 : ¬ (x = b ∧ y = a)) :
    Dir g' x y ↔ Dir g x y := by
  rw [dir_iff (h.PG hg).wf, dir_iff hg.wf, h.mark, h.mark, if_neg h1, if_neg h2,
    if_neg (fun c => h2 ⟨c.2, c.1⟩), if_neg (fun c => h1 ⟨c.2, c.1⟩)]

theorem edge_other (h : OTo g g' a b) (hg : g.PG) {x y : α} (h1 : ¬ (x = a ∧ y = b)) (h2 : ¬ (x = b ∧ y = a)) :
    g'.getEdge x y = g.getEdge x y := by
  by_cases hm : x ∈ g.nodeList ∧ y ∈ g.nodeList
  · rw [getEdge_ok hg.wf hm.1 hm.2, getEdge_ok (h.PG hg).wf (by rw [h.nodes]; exact hm.1) (by rw [h.nodes]; exact hm.2)]
    unfold edge?
    rw [h.mark, h.mark, if_neg h1, if_neg h2,
      if_neg (fun c => h2 ⟨c.2, c.1⟩), if_neg (fun c => h1 ⟨c.2, c.1⟩)]
  · rw [getEdge_err hg.wf hm, getEdge_err (h.PG hg).wf (by rw [h.nodes]; exact hm)]

theorem und_other (h : OTo g g' a b) (hg : g.PG) {x y : α} (h1 : ¬ (x = a ∧ y = b)) (h2 : ¬ (x = b ∧ y = a)) :
    Und g' x y ↔ Und g x y := by
  unfold Und; rw [h.edge_other hg h1 h2]

theorem und (h : OTo g g' a b) (hg : g.PG) (hab : a ≠ b) {x y : α} :
    Und g' x y ↔ Und g x y ∧ ¬ (x = a ∧ y = b) ∧ ¬ (x = b ∧ y = a) := by
  have hw' := (h.PG hg).wf
  have hd := Dir.not_und hw' (h.dir_self hg hab)
  by_cases h1 : x = a ∧ y = b
  · obtain ⟨rfl, rfl⟩ := h1; simp [hd]
  · by_cases h2 : x = b ∧ y = a
    · obtain ⟨rfl, rfl⟩ := h2
      have : ¬ Und g' x y := fun hu => hd (hu.symm hw')
      simp [this]
    · rw [h.und_other hg h1 h2]; simp [h1, h2]

theorem dir_keep (h : OTo g g' a b) (hg : g.PG) (hab : a ≠ b) (hu : Und g a b) {x y : α} (hd : Dir g x y) : Dir g' x y := by
  by_cases h1 : x = a ∧ y = b
  · obtain ⟨rfl, rfl⟩ := h1; exact h.dir_self hg hab
  · by_cases h2 : x = b ∧ y = a
    · obtain ⟨rfl, rfl⟩ := h2; exact absurd (hu.symm hg.wf) (Dir.not_und hg.wf hd)
    · rw [h.dir_other hg h1 h2]; exact hd

end OTo

/-- One justified orientation of an undirected edge: proof device. -/
def Step (J : Graph α → α → α → Prop) (g g' : Graph α) : Prop :=
  ∃ a b, a ≠ b ∧ Und g a b ∧ J g a b ∧ OTo g g' a b

/-- At least one orientation: proof device. -/
abbrev Steps (J : Graph α → α → α → Prop) : Graph α → Graph α → Prop := Relation.TransGen (Step J)

theorem Steps.mono {J J' : Graph α → α → α → Prop} (h : ∀ g a b, J g a b → J' g a b) (hs : Steps J g g') :
    Steps J' g g' := by
  induction hs with
  | single hh =>
    obtain ⟨a, b, h1, h2, h3, h4⟩ := hh
    exact .single ⟨a, b, h1, h2, h _ _ _ h3, h4⟩
  | tail _ hh ih =>
    obtain ⟨a, b, h1, h2, h3, h4⟩ := hh
    exact .tail ih ⟨a, b, h1, h2, h _ _ _ h3, h4⟩

variable {J : Graph α → α → α → Prop}

/-- What a sequence of orientations does to a graph: proof device. -/
structure Oriented (g g' : Graph α) : Prop where
  via : Via g g'
  nodes : g'.nodeList = g.nodeList
  conn : ∀ x y, Conn g' x y ↔ Conn g x y
  keep : ∀ x y, ¬ Und g x y ∨ x = y → g'.getEdge x y = g.getEdge x y
  und : ∀ x y, Und g x y → x ≠ y → Und g' x y ∨ Dir g' x y ∨ Dir g' y x

theorem Oriented.refl (g : Graph α) : Oriented g g :=
  ⟨Via.refl g, rfl, fun _ _ => Iff.rfl, fun _ _ _ => rfl, fun _ _ h _ => Or.inl h⟩

theorem Oriented.trans (h1 : Oriented g g1) (h2 : Oriented g1 g2) (hg : g.PG) : Oriented g g2 := by
  have hw1 := (h1.via.PG hg).wf
  refine ⟨h1.via.trans h2.via, h2.nodes.trans h1.nodes, fun x y => (h2.conn x y).trans (h1.conn x y), ?_, ?_⟩
  · intro x y hxy
    have e1 := h1.keep x y hxy
    rw [← e1]
    apply h2.keep
    rcases hxy with hxy | hxy
    · left; unfold Und at *; rwa [e1]
    · exact Or.inr hxy
  · intro x y hu hne
    rcases h1.und x y hu hne with h | h | h
    · exact h2.und x y h hne
    · right; left
      unfold Dir
      rw [h2.keep x y (Or.inl (Dir.not_und hw1 h))]; exact h
    · right; right
      unfold Dir
      rw [h2.keep y x (Or.inl (Dir.not_und hw1 h))]; exact h

theorem Oriented.dir (h : Oriented g g') (hg : g.PG) {x y : α} (hd : Dir g x y) : Dir g' x y := by
  unfold Dir; rw [h.keep x y (Or.inl (Dir.not_und hg.wf hd))]; exact hd

theorem Step.oriented (hg : g.PG) (h : Step J g g') : Oriented g g' := by
  obtain ⟨a, b, hab, hu, _, h⟩ := h
  refine ⟨h.via, h.nodes, h.conn hg (hu.conn hg.wf), ?_, ?_⟩
  · intro x y hxy
    apply h.edge_other hg
    · rintro ⟨rfl, rfl⟩
      rcases hxy with hxy | hxy
      · exact hxy hu
      · exact hab hxy
    · rintro ⟨rfl, rfl⟩
      rcases hxy with hxy | hxy
      · exact hxy (hu.symm hg.wf)
      · exact hab hxy.symm
  · intro x y hxy hne
    by_cases h1 : x = a ∧ y = b
    · obtain ⟨rfl, rfl⟩ := h1; exact Or.inr (Or.inl (h.dir_self hg hab))
    · by_cases h2 : x = b ∧ y = a
      · obtain ⟨rfl, rfl⟩ := h2; exact Or.inr (Or.inr (h.dir_self hg hab))
      · exact Or.inl ((h.und_other hg h1 h2).2 hxy)

theorem Steps.oriented (hg : g.PG) (h : Steps J g g') : Oriented g g' := by
  induction h with
  | single h => exact h.oriented hg
  | tail _ h ih => exact ih.trans (h.oriented (ih.via.PG hg)) hg

open Classical in
/-- Number of undirected edges: proof device. -/
noncomputable def undCount (g : Graph α) : Nat := ((pairs g.nodeList).filter (fun p => decide (Und g p.1 p.2))).length

theorem filter_length_le {β : Type} (l : List β) (p q : β → Bool) (hpq : ∀ x ∈ l, p x = true → q x = true) :
    (l.filter p).length ≤ (l.filter q).length := by
  induction l with
  | nil => simp
  | cons b r ih =>
    have h1 := hpq b (by simp)
    have h2 := ih (fun y hy => hpq y (by simp [hy]))
    rw [List.filter_cons, List.filter_cons]
    cases hb : p b <;> cases hb' : q b <;> simp_all
    omega

theorem filter_length_lt {β : Type} (l : List β) (p q : β → Bool) (hpq : ∀ x ∈ l, p x = true → q x = true) (x : β)
    (hx : x ∈ l) (hp : p x = false) (hq : q x = true) : (l.filter p).length < (l.filter q).length := by
  induction l with
  | nil => simp at hx
  | cons a t ih =>
    have hle : (t.filter p).length ≤ (t.filter q).length :=
      filter_length_le t p q (fun y hy => hpq y (by simp [hy]))
    have ha := hpq a (by simp)
    rw [List.filter_cons, List.filter_cons]
    rcases List.mem_cons.1 hx with rfl | hx
    · rw [hp, hq]; simp; omega
    · have := ih (fun y hy => hpq y (by simp [hy])) hx
      cases hb : p a <;> cases hb' : q a <;> simp_all
      omega

theorem Step.undCount_lt (hg : g.PG) (h : Step J g g') : g'.undCount < g.undCount := by
  obtain ⟨a, b, hab, hu, _, h⟩ := h
  unfold undCount
  rw [h.nodes]
  have hc := Conn.mem hg.wf (hu.conn hg.wf)
  rcases pairs_complete hc.1 hc.2 hab with hp | hp
  · refine filter_length_lt _ _ _ (fun x _ hx => ?_) (a, b) hp ?_ ?_
    · simp only [decide_eq_true_eq] at hx ⊢; exact ((h.und hg hab).1 hx).1
    · simp [h.und hg hab]
    · simpa using hu
  · refine filter_length_lt _ _ _ (fun x _ hx => ?_) (b, a) hp ?_ ?_
    · simp only [decide_eq_true_eq] at hx ⊢; exact ((h.und hg hab).1 hx).1
    · simp [h.und hg hab]
    · simpa using hu.symm hg.wf

theorem Steps.undCount_lt (hg : g.PG) (h : Steps J g g') : g'.undCount < g.undCount := by
  induction h with
  | single h => exact h.undCount_lt hg
  | tail hs h ih => exact (h.undCount_lt ((Steps.oriented hg hs).via.PG hg)).trans ih

end Graph
end Cdmir
