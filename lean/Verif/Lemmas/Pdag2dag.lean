import Verif.Model.Pdag2dag
import Verif.Lemmas.Skeleton
import Verif.Lemmas.Topo
import Verif.Props.GraphCore

/-! The elimination of `pdag2dag`. -/

namespace Cdmir
namespace Graph
open Spec
variable {α : Type} [DecidableEq α] {g g' c d : Graph α} {N R : List α} {E : α → α → Prop} {k : Kind}

open Classical in
/-- `c` has node list `N` and exactly the directed edges `E`: proof device. -/
structure Rep (k : Kind) (N : List α) (E : α → α → Prop) (c : Graph α) : Prop where
  rs : ReachableSimple k c
  nodes : c.nodeList = N
  mark : ∀ a b, c.mark a b = if E a b then some .arrow else if E b a then some .tail else none

theorem Rep.good (h : Rep k N E c) : c.Good := h.rs.toReachable.good'.1
theorem Rep.wf (h : Rep k N E c) : c.WF := h.good.wf
theorem Rep.kind (h : Rep k N E c) : c.kind = k := h.rs.toReachable.good'.2

theorem Rep.congr {E' : α → α → Prop} (h : Rep k N E c) (he : ∀ a b, E a b ↔ E' a b) : Rep k N E' c := by
  have : E = E' := by funext a b; exact propext (he a b)
  subst this; exact h

theorem Rep.dir (h : Rep k N E c) (hs : ∀ a b, E a b → ¬ E b a) (a b : α) : Dir c a b ↔ E a b := by
  classical
  rw [dir_iff h.wf, h.mark, h.mark]
  by_cases h1 : E a b
  · have := hs a b h1
    simp [h1, this]
  · by_cases h2 : E b a <;> simp [h1, h2]

theorem Rep.conn (h : Rep k N E c) (a b : α) : Conn c a b ↔ E a b ∨ E b a := by
  classical
  rw [conn_iff h.wf, h.mark]
  by_cases h1 : E a b
  · simp [h1]
  · by_cases h2 : E b a <;> simp [h1, h2]

/-- Adding a directed edge whose reverse is absent. -/
theorem Rep.add (h : Rep k N E c) (hk : k ≠ .graph) {y x : α} {ow : Bool} (hy : y ∈ N) (hx : x ∈ N) (hne : y ≠ x)
    (hrev : ¬ E x y) (how : ow = true ∨ ¬ E y x) :
    ∃ c', c.addEdge ⟨y, x, .tail, .arrow⟩ ow = .ok c' ∧ Rep k N (fun a b => E a b ∨ (a = y ∧ b = x)) c' := by
  classical
  have hm : marksOk c.kind .tail .arrow := by
    rw [h.kind]; cases k
    · exact absurd rfl hk
    · exact ⟨rfl, rfl⟩
    · exact ⟨Or.inl rfl, Or.inr rfl⟩
  have e : c.addEdge ⟨y, x, .tail, .arrow⟩ ow = .ok (c.put ⟨y, x, .tail, .arrow⟩) := by
    refine addEdge_ok h.wf hm (by rw [h.nodes]; exact hy) (by rw [h.nodes]; exact hx) ?_
    rcases how with how | how
    · exact Or.inl how
    · right; show c.mark y x = none
      rw [h.mark]; simp [how, hrev]
  refine ⟨_, e, (Via.addEdge (by exact hne) e).reachableSimple h.rs, h.nodes, ?_⟩
  intro a b
  rw [mark_put, h.mark]
  simp only
  by_cases h1 : a = x ∧ b = y
  · obtain ⟨rfl, rfl⟩ := h1
    simp [hrev, hne.symm]
  · rw [if_neg h1]
    by_cases h2 : a = y ∧ b = x
    · simp [h2]
    · rw [if_neg h2]
      have h3 : ¬ (b = y ∧ a = x) := fun h => h1 ⟨h.2, h.1⟩
      simp only [h2, h3, or_false]

/-- Hypotheses on the input of `pdag2dag`: proof device. -/
structure DU (g : Graph α) : Prop where
  rs : ReachableSimple .pdag g
  du : ∀ u v, Conn g u v → Dir g u v ∨ Dir g v u ∨ Und g u v

theorem DU.wf (h : DU g) : g.WF := h.rs.toReachable.good'.1.wf

theorem DU.ne (h : DU g) {u v : α} (hc : Conn g u v) : u ≠ v := by
  rintro rfl
  rw [conn_iff h.wf, h.rs.noLoop u] at hc
  simp at hc

theorem DU.arrow (h : DU g) (u v : α) : g.mark u v = some .arrow ↔ Dir g u v := by
  constructor
  · intro hm
    rcases h.du u v ((conn_iff h.wf u v).2 (by rw [hm]; rfl)) with h1 | h1 | h1
    · exact h1
    · rw [dir_iff h.wf, hm] at h1; simp at h1
    · rw [und_iff h.wf, hm] at h1; simp at h1
  · intro hd; exact ((dir_iff h.wf u v).1 hd).2

open Classical in
theorem DU.isArrow (h : DU g) {u v : α} (hu : u ∈ g.nodeList) (hv : v ∈ g.nodeList) :
    g.isArrow u v = .ok (decide (Dir g u v)) := by
  unfold Graph.isArrow
  rw [hasMark_ok h.wf _ hu hv]
  congr 1
  simp only [h.arrow]

/-- Which edges the first loop keeps after the pairs in `pre`. -/
def Keep (g : Graph α) (pre : List (α × α)) (a b : α) : Prop :=
  Dir g a b ∨ Dir g b a ∨ ((a, b) ∉ pre ∧ (b, a) ∉ pre)

open Classical in
/-- Invariant of the first loop: proof device. -/
structure DropInv (g : Graph α) (pre : List (α × α)) (s : Graph α) : Prop where
  rs : ReachableSimple .pdag s
  nodes : s.nodeList = g.nodeList
  mark : ∀ a b, s.mark a b = if Keep g pre a b then g.mark a b else none

theorem dropUndirected_step (h : DU g) {pre : List (α × α)} {s : Graph α} (hs : DropInv g pre s) {u v : α}
    (hu : u ∈ g.nodeList) (hv : v ∈ g.nodeList) (hne : u ≠ v) (h1 : (u, v) ∉ pre) (h2 : (v, u) ∉ pre) :
    OkP (DropInv g (pre ++ [(u, v)])) (dropUndirected s (u, v)) := by
  classical
  have hw := hs.rs.toReachable.good'.1.wf
  have hu' : u ∈ s.nodeList := by rw [hs.nodes]; exact hu
  have hv' : v ∈ s.nodeList := by rw [hs.nodes]; exact hv
  have muv : s.mark u v = g.mark u v := by rw [hs.mark, if_pos (show Keep g pre u v from Or.inr (Or.inr ⟨h1, h2⟩))]
  have mvu : s.mark v u = g.mark v u := by rw [hs.mark, if_pos (show Keep g pre v u from Or.inr (Or.inr ⟨h2, h1⟩))]
  have fin : ∀ s', ReachableSimple .pdag s' → s'.nodeList = s.nodeList →
      (∀ a b, s'.mark a b = if ((a = u ∧ b = v) ∨ (a = v ∧ b = u)) ∧ ¬ (Dir g u v ∨ Dir g v u) then none else s.mark a b) →
      DropInv g (pre ++ [(u, v)]) s' := by
    intro s' r n m
    refine ⟨r, n.trans hs.nodes, fun a b => ?_⟩
    rw [m, hs.mark]
    by_cases c : (a = u ∧ b = v) ∨ (a = v ∧ b = u)
    · by_cases dd : Dir g u v ∨ Dir g v u
      · have k1 : ∀ p, Keep g p a b := by
          intro p
          rcases c with ⟨rfl, rfl⟩ | ⟨rfl, rfl⟩ <;> rcases dd with dd | dd
          · exact Or.inl dd
          · exact Or.inr (Or.inl dd)
          · exact Or.inr (Or.inl dd)
          · exact Or.inl dd
        simp [dd, k1]
      · have k1 : ¬ Keep g (pre ++ [(u, v)]) a b := by
          rintro (k | k | ⟨k, k'⟩)
          · rcases c with ⟨rfl, rfl⟩ | ⟨rfl, rfl⟩ <;> exact dd (by tauto)
          · rcases c with ⟨rfl, rfl⟩ | ⟨rfl, rfl⟩ <;> exact dd (by tauto)
          · rcases c with ⟨rfl, rfl⟩ | ⟨rfl, rfl⟩ <;> simp at k k'
        rw [if_pos ⟨c, dd⟩, if_neg k1]
    · have k1 : Keep g (pre ++ [(u, v)]) a b ↔ Keep g pre a b := by
        unfold Keep
        have : (a, b) ∈ pre ++ [(u, v)] ↔ (a, b) ∈ pre := by simp; tauto
        have : (b, a) ∈ pre ++ [(u, v)] ↔ (b, a) ∈ pre := by simp; tauto
        tauto
      simp only [c, false_and, if_false, k1]
  unfold dropUndirected
  rw [getEdge_ok hw hu' hv']
  simp only [bind, Except.bind, pure, Except.pure]
  have keepCase : (∀ a b, ((a = u ∧ b = v) ∨ (a = v ∧ b = u)) ∧ ¬ (Dir g u v ∨ Dir g v u) → s.mark a b = none) →
      OkP (DropInv g (pre ++ [(u, v)])) (.ok s) := by
    intro hh
    refine ⟨s, rfl, fin s hs.rs rfl (fun a b => ?_)⟩
    split_ifs with c
    · exact hh a b c
    · rfl
  cases he : s.edge? u v with
  | none =>
    refine keepCase (fun a b c => ?_)
    have hz : (s.mark u v).isSome = false := by rw [← edge?_isSome hw, he]; rfl
    have hz' : (s.mark v u).isSome = false := by rw [← hw.symm_iff]; exact hz
    rcases c.1 with ⟨rfl, rfl⟩ | ⟨rfl, rfl⟩
    · simpa using hz
    · simpa using hz'
  | some e =>
    rw [edge?_eq_some] at he
    obtain ⟨e1, e2, e3, e4⟩ := he
    rw [mvu] at e3
    rw [muv] at e4
    simp only
    by_cases c : (e.mu = .arrow ∧ e.mv = .tail) ∨ (e.mu = .tail ∧ e.mv = .arrow)
    · rw [if_pos c]
      refine keepCase (fun a b hh => absurd ?_ hh.2)
      rcases c with ⟨c1, c2⟩ | ⟨c1, c2⟩
      · right; rw [dir_iff h.wf, e3, e4, c1, c2]; exact ⟨rfl, rfl⟩
      · left; rw [dir_iff h.wf, e3, e4, c1, c2]; exact ⟨rfl, rfl⟩
    · rw [if_neg c]
      have nd : ¬ (Dir g u v ∨ Dir g v u) := by
        rw [dir_iff h.wf, dir_iff h.wf, e3, e4]
        rintro (⟨k1, k2⟩ | ⟨k1, k2⟩)
        · exact c (Or.inr ⟨Option.some.inj k1, Option.some.inj k2⟩)
        · exact c (Or.inl ⟨Option.some.inj k2, Option.some.inj k1⟩)
      rw [e1, e2]
      have er := removeEdge_ok hw hu' hv'
      rw [if_pos (by rw [muv, e4]; rfl)] at er
      refine ⟨_, er, fin _ ((Via.removeEdge er).reachableSimple hs.rs) rfl (fun a b => ?_)⟩
      rw [mark_drop hw]
      simp only [nd, not_false_eq_true, and_true]

/-- L14-18: the copy keeps exactly the directed edges. -/
theorem dropUndirected_ok (h : DU g) : OkP (Rep .pdag g.nodeList (Dir g)) ((pairs g.nodeList).foldlM dropUndirected g) := by
  classical
  have hN := h.wf.nodup
  have := foldlM_ends (P := DropInv g) (F := fun _ => False) (f := dropUndirected) (pairs g.nodeList) g
    ⟨h.rs, rfl, fun a b => by rw [if_pos (show Keep g [] a b from Or.inr (Or.inr ⟨by simp, by simp⟩))]⟩
    (by
      rintro p ⟨u, v⟩ s ⟨t, ht⟩ hs
      have hnd := pairs_nodup hN
      have hm : (u, v) ∈ pairs g.nodeList := by rw [ht]; simp
      have h1 : (u, v) ∉ p := by
        rw [ht] at hnd
        intro hp
        exact (List.nodup_append.1 hnd).2.2 _ hp _ (by simp) rfl
      have h2 : (v, u) ∉ p := by
        intro hp
        exact pairs_asymm hN hm (by rw [ht]; simp [hp])
      obtain ⟨s', e, hs'⟩ := dropUndirected_step h hs (mem_pairs_mem hm).1 (mem_pairs_mem hm).2 (mem_pairs_ne hN hm) h1 h2
      rw [e]; exact hs')
  obtain ⟨s, e, hs⟩ := this.ok (fun _ h => h)
  refine ⟨s, e, hs.rs, hs.nodes, fun a b => ?_⟩
  rw [hs.mark]
  by_cases h1 : Dir g a b
  · rw [if_pos (show Keep g (pairs g.nodeList) a b from Or.inl h1), if_pos h1]; exact ((dir_iff h.wf _ _).1 h1).2
  · rw [if_neg h1]
    by_cases h2 : Dir g b a
    · rw [if_pos (show Keep g (pairs g.nodeList) a b from Or.inr (Or.inl h2)), if_pos h2]; exact ((dir_iff h.wf _ _).1 h2).1
    · rw [if_neg h2]
      split_ifs with hk
      · by_contra hc
        have hsome : (g.mark a b).isSome := by
          cases hm : g.mark a b with
          | none => exact absurd hm hc
          | some m => rfl
        have hne := h.ne ((conn_iff h.wf _ _).2 hsome)
        rcases hk with hk | hk | ⟨k1, k2⟩
        · exact h1 hk
        · exact h2 hk
        · rcases pairs_complete (h.wf.mark_left hsome) (h.wf.mark_right hsome) hne with q | q
          · exact k1 q
          · exact k2 q
      · rfl

open Classical in
theorem tailBoth_ok (h : DU g) {x : α} (hx : x ∈ g.nodeList) :
    tailBoth g x = .ok (g.nodeList.filter (fun y => Und g y x)) := by
  unfold tailBoth Graph.isTail
  have e1 : filterE (fun t => g.hasMark .tail x t) g.nodes = _ :=
    filterE_ok _ (fun t => decide (g.mark x t = some .tail)) g.nodeList (fun t ht => hasMark_ok h.wf _ hx ht)
  have e2 : filterE (fun t => g.hasMark .tail t x) g.nodes = _ :=
    filterE_ok _ (fun t => decide (g.mark t x = some .tail)) g.nodeList (fun t ht => hasMark_ok h.wf _ ht hx)
  rw [e1, e2]
  simp only [bind, Except.bind, pure, Except.pure, List.filter_filter]
  congr 1
  refine List.filter_congr (fun y hy => ?_)
  rw [Bool.eq_iff_iff]
  simp only [Bool.and_eq_true, decide_eq_true_eq, List.mem_filter, und_iff h.wf]
  constructor
  · rintro ⟨⟨_, h1⟩, h2⟩; exact ⟨h2, h1⟩
  · rintro ⟨h1, h2⟩; exact ⟨⟨hy, h2⟩, h1⟩

open Classical in
theorem check2_ok (h : DU g) (ax nx : List α) (ha : ∀ z ∈ ax, z ∈ g.nodeList) (hn : ∀ z ∈ nx, z ∈ g.nodeList) :
    check2 g ax nx = .ok (decide (∀ y ∈ nx, ∀ z ∈ ax, z ≠ y → Conn g y z)) := by
  induction nx with
  | nil => simp [check2, pure, Except.pure]
  | cons y t ih =>
    unfold check2
    have hy := hn y (by simp)
    rw [filterE_ok _ (fun z => decide (¬ Conn g y z)) _ (fun z hz => by
      rw [ic_dec h.wf hy (ha z (List.mem_of_mem_filter hz))]
      simp [bind, Except.bind, pure, Except.pure])]
    simp only [bind, Except.bind, pure, Except.pure]
    rw [ih (fun z hz => hn z (by simp [hz]))]
    by_cases c : ∀ z ∈ ax, z ≠ y → Conn g y z
    · have : (List.filter (fun z => decide (¬ Conn g y z)) (List.filter (fun z => decide (z ≠ y)) ax)).length = 0 := by
        rw [List.length_eq_zero_iff, List.filter_eq_nil_iff]
        intro z hz
        simp only [List.mem_filter, decide_eq_true_eq] at hz
        simp [c z hz.1 hz.2]
      rw [if_neg (by simpa using this)]
      congr 1
      rw [Bool.eq_iff_iff, decide_eq_true_eq, decide_eq_true_eq]
      simp only [List.mem_cons, forall_eq_or_imp]
      exact ⟨fun k => ⟨c, k⟩, fun k => k.2⟩
    · have : (List.filter (fun z => decide (¬ Conn g y z)) (List.filter (fun z => decide (z ≠ y)) ax)).length ≠ 0 := by
        rw [Ne, List.length_eq_zero_iff, List.filter_eq_nil_iff]
        intro k
        apply c
        intro z hz hzy
        have := k z (by simp [hz, hzy])
        simpa using this
      rw [if_pos this]
      congr 1
      rw [eq_comm, decide_eq_false_iff_not]
      exact fun k => c (k y (by simp))

/-- The node `x` may be eliminated next: proof device. -/
def Qual (g : Graph α) (R : List α) (x : α) : Prop :=
  (∀ p, p ∉ R → ¬ Dir g x p) ∧ ∀ y, y ∉ R → Und g y x → ∀ z, z ∉ R → z ≠ y → Conn g z x → Conn g y z

open Classical in
theorem sinkSign_ok (h : DU g) (R : List α) {x : α} (hx : x ∈ g.nodeList) :
    sinkSign g R x = .ok (decide (Qual g R x)) := by
  have hw := h.wf
  unfold sinkSign
  rw [tailBoth_ok h hx]
  have e1 : filterE (fun p => g.isArrow x p) g.nodes = .ok (g.nodeList.filter (fun p => Dir g x p)) :=
    filterE_ok _ _ _ (fun p hp => h.isArrow hx hp)
  have e2 : filterE (fun p => g.isArrow p x) g.nodes = .ok (g.nodeList.filter (fun p => Dir g p x)) :=
    filterE_ok _ _ _ (fun p hp => h.isArrow hp hx)
  rw [e1, e2]
  simp only [bind, Except.bind, pure, Except.pure]
  by_cases c1 : ∀ p, p ∉ R → ¬ Dir g x p
  · have l0 : (List.filter (fun p => decide (p ∉ R)) (List.filter (fun p => decide (Dir g x p)) g.nodeList)).length = 0 := by
      rw [List.length_eq_zero_iff, List.filter_eq_nil_iff]
      intro p hp hq
      simp only [List.mem_filter, decide_eq_true_eq] at hp hq
      exact c1 p hq hp.2
    rw [if_pos l0]
    generalize hnx : List.filter (fun p => decide (p ∉ R)) (List.filter (fun y => decide (Und g y x)) g.nodeList) = nx
    have mnx : ∀ y, y ∈ nx ↔ Und g y x ∧ y ∉ R := by
      intro y
      rw [← hnx]
      simp only [List.mem_filter, decide_eq_true_eq]
      exact ⟨fun k => ⟨k.1.2, k.2⟩, fun k => ⟨⟨(Conn.mem hw (Und.conn hw k.1)).1, k.1⟩, k.2⟩⟩
    generalize hax : List.filter (fun p => decide (((p ∈ List.filter (fun p => decide (Dir g p x)) g.nodeList ∨
      p ∈ List.filter (fun p => decide (Dir g x p)) g.nodeList) ∧ p ∉ R) ∨ p ∈ nx)) g.nodes = ax
    have max : ∀ z, z ∈ ax ↔ Conn g z x ∧ z ∉ R := by
      intro z
      rw [← hax]
      simp only [List.mem_filter, decide_eq_true_eq, mnx]
      constructor
      · rintro ⟨_, (⟨⟨_, k⟩ | ⟨_, k⟩, k2⟩ | k)⟩
        · exact ⟨Dir.conn hw k, k2⟩
        · exact ⟨Conn.symm hw (Dir.conn hw k), k2⟩
        · exact ⟨Und.conn hw k.1, k.2⟩
      · rintro ⟨k, k2⟩
        have hz := (Conn.mem hw k).1
        refine ⟨hz, ?_⟩
        rcases h.du z x k with k | k | k
        · exact Or.inl ⟨Or.inl ⟨hz, k⟩, k2⟩
        · exact Or.inl ⟨Or.inr ⟨hz, k⟩, k2⟩
        · exact Or.inr ⟨k, k2⟩
    have heq : Qual g R x ↔ ∀ y ∈ nx, ∀ z ∈ ax, z ≠ y → Conn g y z := by
      constructor
      · intro q y hy z hz hzy
        rw [mnx] at hy
        rw [max] at hz
        exact q.2 y hy.2 hy.1 z hz.2 hzy hz.1
      · intro q
        refine ⟨c1, fun y hy hu z hz hzy hc => q y ((mnx y).2 ⟨hu, hy⟩) z ((max z).2 ⟨hc, hz⟩) hzy⟩
    have hc2 := check2_ok h ax nx (fun z hz => (Conn.mem hw ((max z).1 hz).1).1)
      (fun z hz => (Conn.mem hw (Und.conn hw ((mnx z).1 hz).1)).1)
    split_ifs with hl
    · rw [hc2]; congr 1; simp only [heq]
    · have : nx = [] := by
        rw [← List.length_eq_zero_iff]; omega
      subst this
      congr 1
      rw [eq_comm, decide_eq_true_eq, heq]
      simp
  · have l0 : (List.filter (fun p => decide (p ∉ R)) (List.filter (fun p => decide (Dir g x p)) g.nodeList)).length ≠ 0 := by
      rw [Ne, List.length_eq_zero_iff, List.filter_eq_nil_iff]
      intro k
      apply c1
      intro p hp hd
      exact k p (by simp [(Dir.mem hw hd).2, hd]) (by simpa using hp)
    rw [if_neg l0]
    congr 1
    rw [eq_comm, decide_eq_false_iff_not]
    exact fun k => c1 k.1

/-- The orientation determined by an elimination order: an undirected edge points at the node removed first. -/
def Elim (g : Graph α) (R : List α) (a b : α) : Prop := Dir g a b ∨ (Und g a b ∧ R.idxOf b < R.idxOf a)

/-- Invariant of the elimination: proof device. -/
structure EInv (g : Graph α) (s : Graph α × List α) : Prop where
  rep : Rep .pdag g.nodeList (Elim g s.2) s.1
  nodup : s.2.Nodup
  sub : ∀ x ∈ s.2, x ∈ g.nodeList
  sink : ∀ u v, Dir g u v → u ∈ s.2 → s.2.idxOf v < s.2.idxOf u
  nbr : ∀ x y, x ∈ s.2 → Und g y x → s.2.idxOf x < s.2.idxOf y → ∀ z, z ≠ y → Conn g z x → s.2.idxOf x < s.2.idxOf z →
    Conn g y z

theorem idxOf_snoc (hx : x ∉ R) (a : α) :
    (R ++ [x]).idxOf a = if a ∈ R then R.idxOf a else if a = x then R.length else R.length + 1 := by
  rw [List.idxOf_append]
  split_ifs with h1 h2
  · rfl
  · subst h2; simp
  · rw [List.idxOf_cons_ne _ (fun h => h2 h.symm)]; simp [Nat.add_comm]

theorem idxOf_lt_iff {R : List α} (a : α) : R.idxOf a < R.length ↔ a ∈ R := List.idxOf_lt_length_iff

theorem idxOf_eq_len {R : List α} {a : α} (h : a ∉ R) : R.idxOf a = R.length := List.idxOf_eq_length h

/-- How precedence changes when `x` is appended. -/
theorem before_snoc {x : α} (hx : x ∉ R) {a b : α} (hab : a ≠ b) :
    (R ++ [x]).idxOf b < (R ++ [x]).idxOf a ↔ R.idxOf b < R.idxOf a ∨ (b = x ∧ a ∉ R) := by
  rw [idxOf_snoc hx, idxOf_snoc hx]
  have la := idxOf_lt_iff (R := R) a
  have lb := idxOf_lt_iff (R := R) b
  by_cases ha : a ∈ R <;> by_cases hb : b ∈ R
  · have hbx : b ≠ x := fun h => hx (h ▸ hb)
    simp [ha, hb]
  · have := idxOf_eq_len hb
    have h1 := la.2 ha
    simp only [ha, hb, if_true, if_false, not_true, and_false, or_false]
    split_ifs <;> omega
  · have := idxOf_eq_len ha
    have h1 := lb.2 hb
    simp only [ha, hb, if_true, if_false]
    split_ifs <;> omega
  · have h1 := idxOf_eq_len ha
    have h2 := idxOf_eq_len hb
    simp only [ha, hb, if_false, h1, h2, not_false_eq_true, and_true, lt_irrefl, false_or]
    by_cases c1 : b = x
    · subst c1
      simp [hab]
    · simp only [c1, if_false, iff_false]
      split_ifs <;> omega

theorem Elim.asymm (hw : g.WF) (R : List α) (a b : α) (h : Elim g R a b) : ¬ Elim g R b a := by
  rintro (h' | ⟨h', hl⟩)
  · rcases h with h | ⟨h, _⟩
    · exact Dir.asymm hw h h'
    · exact Dir.not_und hw h' (Und.symm hw h)
  · rcases h with h | ⟨h, hl'⟩
    · exact Dir.not_und hw h (Und.symm hw h')
    · omega

/-- L38-40. -/
theorem pointAt_fold (h : DU g) {c : Graph α} (hx : x ∈ g.nodeList) (hxR : x ∉ R)
    (hc : Rep .pdag g.nodeList (Elim g R) c) (l : List α) (hl : ∀ y, y ∈ l ↔ Und g y x) :
    OkP (Rep .pdag g.nodeList (Elim g (R ++ [x]))) (l.foldlM (pointAt x) c) := by
  classical
  have hw := h.wf
  have := foldlM_ends (F := fun _ => False) (f := pointAt x)
    (P := fun pre s => Rep .pdag g.nodeList (fun a b => Elim g R a b ∨ (Und g a b ∧ b = x ∧ a ∈ pre ∧ a ∉ R)) s) l c
    (hc.congr (fun a b => by simp))
    (by
      rintro p y s ⟨t, ht⟩ hs
      have hy : Und g y x := (hl y).1 (by rw [ht]; simp)
      have hne := h.ne (Und.conn hw hy)
      have hyN := (Conn.mem hw (Und.conn hw hy)).1
      unfold pointAt
      rw [ic_dec hs.wf (by rw [hs.nodes]; exact hyN) (by rw [hs.nodes]; exact hx)]
      simp only [bind, Except.bind, pure, Except.pure]
      have nd1 : ¬ Dir g y x := fun hd => Dir.not_und hw hd hy
      have nd2 : ¬ Dir g x y := fun hd => Dir.not_und hw hd (Und.symm hw hy)
      have ixl := idxOf_eq_len hxR
      by_cases hyR : y ∈ R
      · have hyl := (idxOf_lt_iff y).2 hyR
        have : Elim g R x y := Or.inr ⟨Und.symm hw hy, by omega⟩
        have h2 : ((Elim g R y x ∨ (Und g y x ∧ x = x ∧ y ∈ p ∧ y ∉ R)) ∨ (Elim g R x y ∨ (Und g x y ∧ y = x ∧ x ∈ p ∧ x ∉ R))) :=
          Or.inr (Or.inl this)
        rw [decide_eq_true ((hs.conn _ _).2 h2)]
        simp only [Bool.not_true, Bool.false_eq_true, if_false]
        refine hs.congr (fun a b => ?_)
        constructor
        · rintro (k | ⟨k1, k2, k3, k4⟩)
          · exact Or.inl k
          · exact Or.inr ⟨k1, k2, by simp [k3], k4⟩
        · rintro (k | ⟨k1, k2, k3, k4⟩)
          · exact Or.inl k
          · rcases List.mem_append.1 k3 with k3 | k3
            · exact Or.inr ⟨k1, k2, k3, k4⟩
            · simp only [List.mem_singleton] at k3; subst k3; exact absurd hyR k4
      · have hyl := idxOf_eq_len hyR
        by_cases hyp : y ∈ p
        · have h2 : ((Elim g R y x ∨ (Und g y x ∧ x = x ∧ y ∈ p ∧ y ∉ R)) ∨ (Elim g R x y ∨ (Und g x y ∧ y = x ∧ x ∈ p ∧ x ∉ R))) :=
            Or.inl (Or.inr ⟨hy, rfl, hyp, hyR⟩)
          rw [decide_eq_true ((hs.conn _ _).2 h2)]
          simp only [Bool.not_true, Bool.false_eq_true, if_false]
          refine hs.congr (fun a b => ?_)
          have : a ∈ p ++ [y] ↔ a ∈ p := by
            simp only [List.mem_append, List.mem_singleton]
            exact ⟨fun k => k.elim id (fun k => k ▸ hyp), Or.inl⟩
          rw [this]
        · have n1 : ¬ (Elim g R y x ∨ (Und g y x ∧ x = x ∧ y ∈ p ∧ y ∉ R)) := by
            rintro (⟨k | ⟨_, k⟩⟩ | k)
            · exact nd1 k
            · omega
            · exact hyp k.2.2.1
          have n2 : ¬ (Elim g R x y ∨ (Und g x y ∧ y = x ∧ x ∈ p ∧ x ∉ R)) := by
            rintro (⟨k | ⟨_, k⟩⟩ | k)
            · exact nd2 k
            · omega
            · exact hne k.2.1
          rw [decide_eq_false (fun kc => ((hs.conn _ _).1 kc).elim n1 n2)]
          simp only [Bool.not_false, if_true]
          obtain ⟨c', e, hc'⟩ := hs.add (by decide) hyN hx hne n2 (ow := false) (Or.inr n1)
          rw [e]
          refine hc'.congr (fun a b => ?_)
          constructor
          · rintro ((k | ⟨k1, k2, k3, k4⟩) | ⟨rfl, rfl⟩)
            · exact Or.inl k
            · exact Or.inr ⟨k1, k2, by simp [k3], k4⟩
            · exact Or.inr ⟨hy, rfl, by simp, hyR⟩
          · rintro (k | ⟨k1, k2, k3, k4⟩)
            · exact Or.inl (Or.inl k)
            · rcases List.mem_append.1 k3 with k3 | k3
              · exact Or.inl (Or.inr ⟨k1, k2, k3, k4⟩)
              · simp only [List.mem_singleton] at k3; exact Or.inr ⟨k3, k2⟩)
  obtain ⟨s, e, hs⟩ := this.ok (fun _ h => h)
  refine ⟨s, e, hs.congr (fun a b => ?_)⟩
  unfold Elim
  constructor
  · rintro ((k | ⟨k1, k2⟩) | ⟨k1, rfl, k3, k4⟩)
    · exact Or.inl k
    · exact Or.inr ⟨k1, (before_snoc hxR (h.ne (Und.conn hw k1))).2 (Or.inl k2)⟩
    · exact Or.inr ⟨k1, (before_snoc hxR (h.ne (Und.conn hw k1))).2 (Or.inr ⟨rfl, k4⟩)⟩
  · rintro (k | ⟨k1, k2⟩)
    · exact Or.inl (Or.inl k)
    · rcases (before_snoc hxR (h.ne (Und.conn hw k1))).1 k2 with k | ⟨k, k'⟩
      · exact Or.inl (Or.inr ⟨k1, k⟩)
      · subst k
        exact Or.inr ⟨k1, rfl, (hl a).2 k1, k'⟩

/-- L24-41 for one node: it is removed iff it qualifies. -/
theorem elimNode_ok (h : DU g) {s : Graph α × List α} (hs : EInv g s) {x : α} (hx : x ∈ g.nodeList) :
    ∃ s', elimNode g s x = .ok s' ∧ EInv g s' ∧
      ((s' = s ∧ (x ∈ s.2 ∨ ¬ Qual g s.2 x)) ∨ (x ∉ s.2 ∧ Qual g s.2 x ∧ s'.2 = s.2 ++ [x])) := by
  classical
  have hw := h.wf
  unfold elimNode
  by_cases hxR : x ∈ s.2
  · rw [if_pos hxR]; exact ⟨s, rfl, hs, Or.inl ⟨rfl, Or.inl hxR⟩⟩
  · rw [if_neg hxR, sinkSign_ok h _ hx, tailBoth_ok h hx]
    simp only [bind, Except.bind, pure, Except.pure]
    by_cases q : Qual g s.2 x
    · rw [if_pos (by simpa using q)]
      obtain ⟨c', e, hc'⟩ := pointAt_fold h hx hxR hs.rep (g.nodeList.filter (fun y => Und g y x)) (by
        intro y
        simp only [List.mem_filter, decide_eq_true_eq]
        exact ⟨fun k => k.2, fun k => ⟨(Conn.mem hw (Und.conn hw k)).1, k⟩⟩)
      rw [e]
      refine ⟨_, rfl, ⟨hc', ?_, ?_, ?_, ?_⟩, Or.inr ⟨hxR, q, rfl⟩⟩
      · simp only
        rw [List.nodup_append]
        refine ⟨hs.nodup, by simp, ?_⟩
        intro a ha b hb
        simp only [List.mem_singleton] at hb
        subst hb
        rintro rfl
        exact hxR ha
      · intro a ha
        rcases List.mem_append.1 ha with k | k
        · exact hs.sub a k
        · simp only [List.mem_singleton] at k; subst k; exact hx
      · intro u v hd hu
        refine (before_snoc hxR (Dir.ne hw hd)).2 ?_
        rcases List.mem_append.1 hu with k | k
        · exact Or.inl (hs.sink u v hd k)
        · simp only [List.mem_singleton] at k
          subst k
          left
          have hv : v ∈ s.2 := by
            by_contra hv
            exact q.1 v hv hd
          have h1 := (idxOf_lt_iff v).2 hv
          have h2 := idxOf_eq_len hxR
          omega
      · intro a y ha hu hlt z hzy hcz hlz
        have hay := (h.ne (Und.conn hw hu))
        have haz := (h.ne hcz)
        rcases (before_snoc hxR hay).1 hlt with k | ⟨k, k'⟩
        · have haR : a ∈ s.2 := by
            by_contra haR
            have h1 := idxOf_eq_len haR
            have h2 : s.2.idxOf y ≤ s.2.length := List.idxOf_le_length
            omega
          rcases (before_snoc hxR haz).1 hlz with m | ⟨m, m'⟩
          · exact hs.nbr a y haR hu k z hzy hcz m
          · subst m; exact absurd haR hxR
        · subst k
          rcases (before_snoc hxR haz).1 hlz with m | ⟨m, m'⟩
          · have h1 := idxOf_eq_len hxR
            have h2 : s.2.idxOf z ≤ s.2.length := List.idxOf_le_length
            omega
          · exact q.2 y k' hu z m' hzy hcz
    · rw [if_neg (by simpa using q)]
      exact ⟨s, rfl, hs, Or.inl ⟨rfl, Or.inr q⟩⟩

/-- A node without outgoing edges, in a consistent extension, to nodes that are not removed, qualifies. -/
theorem qual_of_extends {D : α → α → Prop} (h : DU g) (he : Extends D g) {R0 : List α} (hsub : ∀ a ∈ R0, a ∈ R) {x : α}
    (hx : ∀ p, p ∉ R0 → ¬ D x p) : Qual g R x := by
  have hw := h.wf
  have key : ∀ y, y ∉ R → Conn g y x → D y x := by
    intro y hy hc
    rcases (he.adj y x).2 ⟨h.ne hc, hc⟩ with k | k
    · exact k
    · exact absurd k (hx y (fun m => hy (hsub y m)))
  refine ⟨fun p hp hd => hx p (fun m => hp (hsub p m)) (he.dir _ _ hd), ?_⟩
  intro y hy hu z hz hzy hc
  by_contra hn
  have := he.collider y x z (fun k => hzy k.symm) (key y hy (Und.conn hw hu)) (key z hz hc)
    (fun ha => hn ((he.adj y z).1 ha).2)
  exact Dir.not_und hw this.1 hu

/-- Invariant of one `for` pass that starts with `R0` removed. -/
theorem elimPass_ok (h : DU g) {s : Graph α × List α} (hs : EInv g s) :
    ∃ s', g.nodes.foldlM (elimNode g) s = .ok s' ∧ EInv g s' ∧ ∀ a ∈ s.2, a ∈ s'.2 := by
  obtain ⟨s', e, h1, h2⟩ := foldlM_inv (P := fun t => EInv g t ∧ ∀ a ∈ s.2, a ∈ t.2) (f := elimNode g) g.nodes
    (by
      rintro t x hx ⟨ht, hsub⟩
      obtain ⟨t', e, ht', k | k⟩ := elimNode_ok h ht hx
      · rw [k.1] at e; exact ⟨t, e, ht, hsub⟩
      · exact ⟨t', e, ht', fun a ha => by rw [k.2.2]; simp [hsub a ha]⟩) s ⟨hs, fun a ha => ha⟩
  exact ⟨s', e, h1, h2⟩

theorem elimPass_progress {D : α → α → Prop} (h : DU g) (he : Extends D g) {s : Graph α × List α} (hs : EInv g s)
    (hrem : ∃ x ∈ g.nodeList, x ∉ s.2) :
    ∃ s' x, g.nodes.foldlM (elimNode g) s = .ok s' ∧ EInv g s' ∧ (∀ a ∈ s.2, a ∈ s'.2) ∧ x ∈ g.nodeList ∧ x ∉ s.2 ∧ x ∈ s'.2 := by
  have hw := h.wf
  have hmem : ∀ u v, D u v → u ∈ g.nodeList ∧ v ∈ g.nodeList := fun u v k =>
    Conn.mem hw ((he.adj u v).1 (Or.inl k)).2
  have acr : Acyclic (fun u v => D v u) := by
    intro u hu
    exact he.acyclic u (Relation.transGen_swap.1 hu)
  obtain ⟨x, ⟨hxN, hxR⟩, hmin⟩ := exists_minimal (R := fun u v => D v u) g.nodeList (fun u v k => (hmem v u k).2) acr
    (fun u => u ∈ g.nodeList ∧ u ∉ s.2) hrem
  have hx : ∀ p, p ∉ s.2 → ¬ D x p := fun p hp k => hmin p k ⟨(hmem x p k).2, hp⟩
  obtain ⟨s', e, ⟨h1, h2⟩, h3⟩ := foldlM_est (I := fun t => EInv g t ∧ ∀ a ∈ s.2, a ∈ t.2) (P := fun t => x ∈ t.2)
    (f := elimNode g) g.nodes x hxN
    (by
      rintro t y hy ⟨ht, hsub⟩
      obtain ⟨t', e, ht', k | k⟩ := elimNode_ok h ht hy
      · rw [k.1] at e; exact ⟨t, e, ht, hsub⟩
      · exact ⟨t', e, ht', fun a ha => by rw [k.2.2]; simp [hsub a ha]⟩)
    (by
      rintro t ⟨ht, hsub⟩
      obtain ⟨t', e, ht', k | k⟩ := elimNode_ok h ht hxN
      · rcases k.2 with m | m
        · rw [k.1] at e; exact ⟨t, e, m⟩
        · exact absurd (qual_of_extends h he hsub hx) m
      · exact ⟨t', e, by show x ∈ t'.2; rw [k.2.2]; simp⟩)
    (by
      rintro t y hy ⟨ht, hsub⟩ hxt
      obtain ⟨t', e, ht', k | k⟩ := elimNode_ok h ht hy
      · rw [k.1] at e; exact ⟨t, e, hxt⟩
      · exact ⟨t', e, by show x ∈ t'.2; rw [k.2.2]; simp [hxt]⟩) s ⟨hs, fun a ha => ha⟩
  exact ⟨s', x, e, h1, h2, hxN, hxR, h3⟩

theorem elimLoop_ends (h : DU g) (n : Nat) (s : Graph α × List α) (hs : EInv g s) :
    Ends (fun c => ∃ R, EInv g (c, R) ∧ ∀ x ∈ g.nodeList, x ∈ R) (fun e => e = .fuel) (elimLoop g n s) := by
  induction n generalizing s with
  | zero =>
    unfold elimLoop
    split_ifs with c
    · exact ⟨s.2, hs, c⟩
    · rfl
  | succ n ih =>
    unfold elimLoop
    split_ifs with c
    · exact ⟨s.2, hs, c⟩
    · obtain ⟨s', e, hs', _⟩ := elimPass_ok h hs
      simp only [bind, Except.bind]
      rw [e]
      exact ih s' hs'

theorem elimLoop_ok {D : α → α → Prop} (h : DU g) (he : Extends D g) (n : Nat) (s : Graph α × List α) (hs : EInv g s)
    (hn : (g.nodeList.filter (fun x => x ∉ s.2)).length ≤ n) : ∃ c, elimLoop g n s = .ok c := by
  induction n generalizing s with
  | zero =>
    have : ∀ x ∈ g.nodes, x ∈ s.2 := by
      intro x hx
      have h0 : g.nodeList.filter (fun x => x ∉ s.2) = [] := List.length_eq_zero_iff.1 (by omega)
      rw [List.filter_eq_nil_iff] at h0
      have := h0 x hx
      simpa using this
    unfold elimLoop
    rw [if_pos this]
    exact ⟨_, rfl⟩
  | succ n ih =>
    unfold elimLoop
    split_ifs with c
    · exact ⟨_, rfl⟩
    · have hrem : ∃ x ∈ g.nodeList, x ∉ s.2 := by
        by_contra k
        apply c
        intro x hx
        by_contra hxs
        exact k ⟨x, hx, hxs⟩
      obtain ⟨s', x, e, hs', hsub, hxN, hxs, hxs'⟩ := elimPass_progress h he hs hrem
      simp only [bind, Except.bind]
      rw [e]
      refine ih s' hs' ?_
      have hlt : (g.nodeList.filter (fun x => x ∉ s'.2)).length < (g.nodeList.filter (fun x => x ∉ s.2)).length := by
        have : g.nodeList.filter (fun x => x ∉ s'.2) = (g.nodeList.filter (fun x => x ∉ s.2)).filter (fun x => x ∉ s'.2) := by
          rw [List.filter_filter]
          refine List.filter_congr (fun a _ => ?_)
          rw [Bool.eq_iff_iff]
          simp only [decide_eq_true_eq, Bool.and_eq_true]
          exact ⟨fun k => ⟨k, fun m => k (hsub a m)⟩, fun k => k.1⟩
        rw [this]
        refine List.length_filter_lt_length_iff_exists.2 ⟨x, ?_, ?_⟩
        · simp [hxN, hxs]
        · simpa using hxs'
      omega

theorem elimLoop_mono (n m : Nat) (hnm : n ≤ m) (s : Graph α × List α) (c : Graph α) (he : elimLoop g n s = .ok c) :
    elimLoop g m s = .ok c := by
  induction n generalizing s m with
  | zero =>
    unfold elimLoop at he ⊢
    split_ifs at he ⊢ with k
    · exact he
  | succ n ih =>
    obtain ⟨m, rfl⟩ : ∃ m', m = m' + 1 := ⟨m - 1, by omega⟩
    unfold elimLoop at he ⊢
    split_ifs at he ⊢ with k
    · exact he
    · simp only [bind, Except.bind] at he ⊢
      cases e : g.nodes.foldlM (elimNode g) s with
      | error x => rw [e] at he; simp at he
      | ok s' => rw [e] at he; exact ih m (by omega) s' he

/-- L43-47: the result has the same directed edges. -/
theorem build_ok (hc : Rep .pdag N E c) (hs : ∀ a b, E a b → ¬ E b a) :
    OkP (Rep .digraph N E) (do
      let d ← Graph.init .digraph c.nodes
      (← c.edges).foldlM addOriented d) := by
  classical
  have hw := hc.wf
  have hN : c.nodeList.Nodup := hw.nodup
  have hmem : ∀ a b, E a b → a ∈ N ∧ b ∈ N := by
    intro a b k
    have := Conn.mem hw ((hc.conn a b).2 (Or.inl k))
    rwa [hc.nodes] at this
  obtain ⟨d0, e0⟩ := (init_ok_iff .digraph c.nodeList).2 hN
  obtain ⟨w0, n0, k0, m0⟩ := init_WF e0
  have e0' : Graph.init .digraph c.nodes = .ok d0 := e0
  rw [e0', edges_ok hw]
  simp only [bind, Except.bind]
  have hinit : Rep .digraph N (fun a b => E a b ∧ ∃ e ∈ ([] : List (Edge α)), (e.u = a ∧ e.v = b) ∨ (e.u = b ∧ e.v = a)) d0 := by
    refine ⟨⟨_, d0, [], e0, by simp, rfl⟩, n0.trans hc.nodes, fun a b => ?_⟩
    rw [m0]; simp
  have := foldlM_ends (F := fun _ => False) (f := addOriented)
    (P := fun pre s => Rep .digraph N (fun a b => E a b ∧ ∃ e ∈ pre, (e.u = a ∧ e.v = b) ∨ (e.u = b ∧ e.v = a)) s)
    c.edgeList d0 hinit
    (by
      rintro p e s ⟨t, ht⟩ hsr
      have he : e ∈ c.edgeList := by rw [ht]; simp
      have hm : c.mark e.v e.u = some e.mu ∧ c.mark e.u e.v = some e.mv := by
        unfold edgeList at he
        rw [List.mem_filterMap] at he
        obtain ⟨q, _, hq⟩ := he
        rw [edge?_eq_some] at hq
        obtain ⟨q1, q2, q3, q4⟩ := hq
        rw [q1, q2]; exact ⟨q3, q4⟩
      have cases : (E e.u e.v ∧ e.mu = .tail ∧ e.mv = .arrow) ∨ (E e.v e.u ∧ e.mu = .arrow ∧ e.mv = .tail) := by
        rw [hc.mark, hc.mark] at hm
        by_cases c1 : E e.u e.v
        · have c2 := hs _ _ c1
          simp only [c1, c2, if_true, if_false, Option.some.injEq] at hm
          exact Or.inl ⟨c1, hm.1.symm, hm.2.symm⟩
        · by_cases c2 : E e.v e.u
          · simp only [c1, c2, if_true, if_false, Option.some.injEq] at hm
            exact Or.inr ⟨c2, hm.1.symm, hm.2.symm⟩
          · simp [c1, c2] at hm
      have fin : ∀ a b, E a b → ((e.u = a ∧ e.v = b) ∨ (e.u = b ∧ e.v = a)) → ∃ s', s.addEdge ⟨a, b, .tail, .arrow⟩ true = .ok s' ∧
          Rep .digraph N (fun a b => E a b ∧ ∃ q ∈ p ++ [e], (q.u = a ∧ q.v = b) ∨ (q.u = b ∧ q.v = a)) s' := by
        intro a b hab hu
        obtain ⟨s', es, hs'⟩ := hsr.add (by decide) (hmem a b hab).1 (hmem a b hab).2 (fun k => by subst k; exact hs _ _ hab hab)
          (ow := true) (fun k => hs _ _ hab k.1) (Or.inl rfl)
        refine ⟨s', es, hs'.congr (fun x y => ?_)⟩
        constructor
        · rintro (⟨k1, q, k2, k3⟩ | ⟨rfl, rfl⟩)
          · exact ⟨k1, q, by simp [k2], k3⟩
          · exact ⟨hab, e, by simp, hu⟩
        · rintro ⟨k1, q, k2, k3⟩
          rcases List.mem_append.1 k2 with k2 | k2
          · exact Or.inl ⟨k1, q, k2, k3⟩
          · simp only [List.mem_singleton] at k2
            subst k2
            right
            rcases hu with ⟨rfl, rfl⟩ | ⟨rfl, rfl⟩ <;> rcases k3 with ⟨rfl, rfl⟩ | ⟨rfl, rfl⟩
            · exact ⟨rfl, rfl⟩
            · exact absurd k1 (hs _ _ hab)
            · exact absurd k1 (hs _ _ hab)
            · exact ⟨rfl, rfl⟩
      unfold addOriented
      rcases cases with ⟨k1, k2, k3⟩ | ⟨k1, k2, k3⟩
      · rw [if_neg (by rw [k2]; simp)]
        obtain ⟨s', es, hs'⟩ := fin _ _ k1 (Or.inl ⟨rfl, rfl⟩)
        have : e = ⟨e.u, e.v, .tail, .arrow⟩ := by rw [← k2, ← k3]
        rw [this, es]; rw [← this]; exact hs'
      · rw [if_pos ⟨k2, k3⟩, k2, k3]
        obtain ⟨s', es, hs'⟩ := fin _ _ k1 (Or.inr ⟨rfl, rfl⟩)
        rw [es]; exact hs')
  obtain ⟨d, ed, hd⟩ := this.ok (fun _ h => h)
  refine ⟨d, ed, hd.congr (fun a b => ⟨fun k => k.1, fun k => ⟨k, ?_⟩⟩)⟩
  have hcab := (hc.conn a b).2 (Or.inl k)
  have hne : a ≠ b := fun q => by subst q; exact hs _ _ k k
  have hsome := (conn_iff hw a b).1 hcab
  have hsome' : (c.mark b a).isSome := hw.symm _ _ hsome
  rcases pairs_complete (hw.mark_left hsome) (hw.mark_right hsome) hne with q | q
  · have : (c.edge? a b).isSome := by rw [edge?_isSome hw]; exact hsome
    obtain ⟨e, he⟩ := Option.isSome_iff_exists.1 this
    have h2 := edge?_eq_some.1 he
    exact ⟨e, List.mem_filterMap.2 ⟨(a, b), q, he⟩, Or.inl ⟨h2.1, h2.2.1⟩⟩
  · have : (c.edge? b a).isSome := by rw [edge?_isSome hw]; exact hsome'
    obtain ⟨e, he⟩ := Option.isSome_iff_exists.1 this
    have h2 := edge?_eq_some.1 he
    exact ⟨e, List.mem_filterMap.2 ⟨(b, a), q, he⟩, Or.inr ⟨h2.1, h2.2.1⟩⟩

theorem EInv.init (hc : Rep .pdag g.nodeList (Dir g) c) : EInv g (c, []) :=
  ⟨hc.congr (fun a b => by simp [Elim]), List.nodup_nil, by simp, by simp, by simp⟩

/-- A finished elimination gives a consistent extension. -/
theorem EInv.extends (h : DU g) (hi : EInv g (c, R)) (hall : ∀ x ∈ g.nodeList, x ∈ R) : Extends (Elim g R) g := by
  have hw := h.wf
  have hdec : ∀ u v, Elim g R u v → R.idxOf v < R.idxOf u := by
    rintro u v (k | k)
    · exact hi.sink u v k (hall u (Dir.mem hw k).1)
    · exact k.2
  have hconn : ∀ u v, Elim g R u v → Conn g u v := by
    rintro u v (k | k)
    · exact Dir.conn hw k
    · exact Und.conn hw k.1
  have hadj : ∀ u v, Adj (Elim g R) u v ↔ u ≠ v ∧ Conn g u v := by
    intro u v
    constructor
    · rintro (k | k)
      · exact ⟨h.ne (hconn _ _ k), hconn _ _ k⟩
      · exact ⟨(h.ne (hconn _ _ k)).symm, Conn.symm hw (hconn _ _ k)⟩
    · rintro ⟨hne, hc⟩
      rcases h.du u v hc with k | k | k
      · exact Or.inl (Or.inl k)
      · exact Or.inr (Or.inl k)
      · have hm := Conn.mem hw hc
        have : R.idxOf u ≠ R.idxOf v := fun q => hne ((List.idxOf_inj (hall u hm.1)).1 q)
        rcases Nat.lt_or_gt_of_ne this with q | q
        · exact Or.inr (Or.inr ⟨Und.symm hw k, q⟩)
        · exact Or.inl (Or.inr ⟨k, q⟩)
  refine ⟨?_, hadj, fun u v k => Or.inl k, ?_⟩
  · intro u hu
    have : ∀ a b, Relation.TransGen (Elim g R) a b → R.idxOf b < R.idxOf a := by
      intro a b k
      induction k with
      | single k => exact hdec _ _ k
      | tail _ k ih => exact (hdec _ _ k).trans ih
    exact lt_irrefl _ (this u u hu)
  · have one : ∀ u w v, u ≠ v → Elim g R u w → Elim g R v w → ¬ Adj (Elim g R) u v → Dir g u w := by
      intro u w v huv k1 k2 hna
      rcases k1 with k1 | ⟨k1, k1'⟩
      · exact k1
      · exfalso
        apply hna
        rw [hadj]
        have hm := Conn.mem hw (Und.conn hw k1)
        exact ⟨huv, hi.nbr w u (hall w hm.2) k1 k1' v huv.symm (hconn _ _ k2) (hdec _ _ k2)⟩
    intro u w v huv k1 k2 hna
    exact ⟨one u w v huv k1 k2 hna, one v w u huv.symm k2 k1 (fun q => hna q.symm)⟩

/-- Outcomes of `pdag2dag`. -/
theorem pdag2dag_ends (h : DU g) (n : Nat) :
    Ends (fun d => ReachableSimple .digraph d ∧ d.nodeList = g.nodeList ∧ Extends (Dir d) g) (fun e => e = .fuel)
      (pdag2dag n g) := by
  obtain ⟨c0, e0, hc0⟩ := dropUndirected_ok h
  have e0' : (pairs g.nodes).foldlM dropUndirected g = .ok c0 := e0
  unfold pdag2dag
  simp only [bind, Except.bind]
  rw [e0']
  simp only
  have hl := elimLoop_ends h n (c0, []) (EInv.init hc0)
  cases ec : elimLoop g n (c0, []) with
  | error x => rw [ec] at hl; exact hl
  | ok c =>
    rw [ec] at hl
    obtain ⟨R, hi, hall⟩ := hl
    obtain ⟨d, ed, hd⟩ := build_ok hi.rep (Elim.asymm h.wf R)
    simp only [bind, Except.bind] at ed
    simp only
    rw [ed]
    refine ⟨hd.rs, hd.nodes, ?_⟩
    have : Dir d = Elim g R := by
      funext a b; exact propext (hd.dir (Elim.asymm h.wf R) a b)
    rw [this]
    exact hi.extends h hall

theorem pdag2dag_ok {D : α → α → Prop} (h : DU g) (he : Extends D g) : ∃ d, pdag2dag g.nodeList.length g = .ok d := by
  obtain ⟨c0, e0, hc0⟩ := dropUndirected_ok h
  have e0' : (pairs g.nodes).foldlM dropUndirected g = .ok c0 := e0
  have hen := pdag2dag_ends h g.nodeList.length
  unfold pdag2dag at hen ⊢
  simp only [bind, Except.bind] at hen ⊢
  rw [e0'] at hen ⊢
  simp only at hen ⊢
  obtain ⟨c, ec⟩ := elimLoop_ok h he g.nodeList.length (c0, []) (EInv.init hc0) (List.length_filter_le _ _)
  have hl := elimLoop_ends h g.nodeList.length (c0, []) (EInv.init hc0)
  rw [ec] at hen ⊢
  rw [ec] at hl
  obtain ⟨R, hi, hall⟩ := hl
  obtain ⟨d, ed, hd⟩ := build_ok hi.rep (Elim.asymm h.wf R)
  exact ⟨d, ed⟩

theorem pdag2dag_mono {n m : Nat} (hnm : n ≤ m) (he : pdag2dag n g = .ok d) : pdag2dag m g = .ok d := by
  unfold pdag2dag at he ⊢
  simp only [bind, Except.bind] at he ⊢
  cases e0 : (pairs g.nodes).foldlM dropUndirected g with
  | error x => rw [e0] at he; simp at he
  | ok c0 =>
    rw [e0] at he
    simp only at he ⊢
    cases e1 : elimLoop g n (c0, []) with
    | error x => rw [e1] at he; simp at he
    | ok c => rw [elimLoop_mono n m hnm _ _ e1]; rw [e1] at he; exact he

end Graph
end Cdmir
