import Verif.Lemmas.Meek

/-! The loop of `rule0`. -/

namespace Cdmir
namespace Graph
open Spec
variable {α : Type} [DecidableEq α]

theorem _root_.Cdmir.Spec.Claims.symm {g : Graph α} {sep : Dict (α × α) (List α)} {u w v : α} (h : Claims g sep u w v)
    (hw : g.WF) : Claims g sep v w u := by
  obtain ⟨h1, h2, h3, h4, h5, h6⟩ := h
  exact ⟨h2, h1, h4, h3, fun h => h5 (h.symm hw), h6.symm⟩

/-- Some unshielded triple asks for `a -> b`: proof device. -/
def To (g0 : Graph α) (sep : Dict (α × α) (List α)) (a b : α) : Prop := ∃ v, Claims g0 sep a b v

/-- Invariant of `rule0`: proof device. -/
structure R0 (g0 : Graph α) (sep : Dict (α × α) (List α)) (g : Graph α) : Prop where
  pg : g.PG
  via : Via g0 g
  nodes : g.nodeList = g0.nodeList
  conn : ∀ x y, Conn g x y ↔ Conn g0 x y
  edge : ∀ a b, a ≠ b → g.getEdge a b = g0.getEdge a b ∨ (Dir g a b ∧ To g0 sep a b) ∨ (Dir g b a ∧ To g0 sep b a)
  self : ∀ a, g.getEdge a a = g0.getEdge a a

variable {g0 g : Graph α} {sep : Dict (α × α) (List α)}

theorem R0.orient (h : R0 g0 sep g) {a b : α} (hc : Conn g0 a b) (hab : a ≠ b) (ht : To g0 sep a b) :
    ∃ g', g.orient a b = .ok g' ∧ R0 g0 sep g' ∧ Dir g' a b ∧
      (∀ x y, ¬ (x = b ∧ y = a) → Dir g x y → Dir g' x y) := by
  have hc' : Conn g a b := (h.conn a b).2 hc
  have hm := Conn.mem h.pg.wf hc'
  obtain ⟨g', e, o⟩ := orient_ok h.pg hm.1 hm.2 hab
  refine ⟨g', e, ⟨o.PG h.pg, h.via.trans o.via, o.nodes.trans h.nodes, fun x y => (o.conn h.pg hc' x y).trans (h.conn x y), ?_, ?_⟩,
    o.dir_self h.pg hab, ?_⟩
  · intro x y hxy
    by_cases h1 : x = a ∧ y = b
    · obtain ⟨rfl, rfl⟩ := h1; exact Or.inr (Or.inl ⟨o.dir_self h.pg hab, ht⟩)
    · by_cases h2 : x = b ∧ y = a
      · obtain ⟨rfl, rfl⟩ := h2; exact Or.inr (Or.inr ⟨o.dir_self h.pg hab, ht⟩)
      · rw [o.edge_other h.pg h1 h2, o.dir_other h.pg h1 h2,
          o.dir_other h.pg (fun c => h2 ⟨c.2, c.1⟩) (fun c => h1 ⟨c.2, c.1⟩)]
        exact h.edge x y hxy
  · intro x
    rw [o.edge_other h.pg (fun c => hab (c.1.symm.trans c.2)) (fun c => hab (c.2.symm.trans c.1))]
    exact h.self x
  · intro x y hne hd
    by_cases h1 : x = a ∧ y = b
    · obtain ⟨rfl, rfl⟩ := h1; exact o.dir_self h.pg hab
    · rw [o.dir_other h.pg h1 hne]; exact hd

theorem rule0Body_spec {u v w : α} (hw : w ∈ g0.nodeList) (hg0 : g0.PG) (huv : (u, v) ∈ pairs g0.nodeList)
    (hnc : ¬ Conn g0 u v) (hs : (dget sep (u, v)).isSome) (g : Graph α) (hg : R0 g0 sep g) :
    ∃ g', rule0Body sep u v g w = .ok g' ∧ R0 g0 sep g' ∧
      (∀ x y, ¬ To g0 sep y x → Dir g x y → Dir g' x y) ∧
      (Claims g0 sep u w v → Dir g' u w ∧ Dir g' v w) := by
  classical
  have hp := hg.pg
  obtain ⟨hu, hv, hlt⟩ := (mem_pairs_iff hg0.wf.nodup u v).1 huv
  have hu' : u ∈ g.nodeList := by rw [hg.nodes]; exact hu
  have hv' : v ∈ g.nodeList := by rw [hg.nodes]; exact hv
  have hw' : w ∈ g.nodeList := by rw [hg.nodes]; exact hw
  obtain ⟨s, hs⟩ := Option.isSome_iff_exists.1 hs
  have huvne := mem_pairs_ne hg0.wf.nodup huv
  have same : ¬ Claims g0 sep u w v → ∃ g', (pure g : Except Err (Graph α)) = .ok g' ∧ R0 g0 sep g' ∧
      (∀ x y, ¬ To g0 sep y x → Dir g x y → Dir g' x y) ∧ (Claims g0 sep u w v → Dir g' u w ∧ Dir g' v w) :=
    fun hn => ⟨g, rfl, hg, fun _ _ _ h => h, fun h => absurd h hn⟩
  unfold rule0Body
  by_cases h1 : w = u ∨ w = v
  · rw [if_pos h1]
    exact same (fun h => by rcases h1 with h1 | h1 <;> simp_all [Claims])
  · rw [if_neg h1]
    push Not at h1
    simp only [ic_dec hp.wf hu' hw', ic_dec hp.wf hv' hw', bind, Except.bind, dgetE, hs]
    by_cases h2 : Conn g u w
    · by_cases h3 : Conn g v w
      · have hcu := (hg.conn u w).1 h2
        have hcv := (hg.conn v w).1 h3
        simp only [h2, h3, decide_true, Bool.not_true]
        by_cases h4 : w ∈ s
        · rw [if_neg (by simp), if_neg (by simp), if_pos h4]
          refine same (fun h => ?_)
          obtain ⟨_, _, _, _, _, h6⟩ := h
          rcases h6 with ⟨_, s', hs', hn⟩ | ⟨hlt', _⟩
          · rw [hs] at hs'; cases hs'; exact hn h4
          · unfold nodes at hlt'; omega
        · rw [if_neg (by simp), if_neg (by simp), if_neg h4]
          have hcl : Claims g0 sep u w v := ⟨h1.1, h1.2, hcu, hcv, hnc, Or.inl ⟨hlt, s, hs, h4⟩⟩
          obtain ⟨g1, e1, r1, d1, k1⟩ := hg.orient hcu (Ne.symm h1.1) ⟨v, hcl⟩
          obtain ⟨g2, e2, r2, d2, k2⟩ := r1.orient hcv (Ne.symm h1.2) ⟨u, hcl.symm hg0.wf⟩
          refine ⟨g2, by simp only [e1, e2], r2, ?_, ?_⟩
          · intro x y hn hd
            apply k2
            · rintro ⟨rfl, rfl⟩; exact hn ⟨u, hcl.symm hg0.wf⟩
            · apply k1
              · rintro ⟨rfl, rfl⟩; exact hn ⟨v, hcl⟩
              · exact hd
          · intro _
            exact ⟨k2 _ _ (by rintro ⟨rfl, _⟩; exact h1.1 rfl) d1, d2⟩
      · simp only [h2, h3, decide_true, decide_false, Bool.not_true, Bool.not_false, if_true]
        exact same (fun h => h3 ((hg.conn v w).2 h.2.2.2.1))
    · simp only [h2, decide_false, Bool.not_false, if_true]
      exact same (fun h => h2 ((hg.conn u w).2 h.2.2.1))

/-- Body of the outer loop of `rule0` (pdag.py L18-33): proof device. -/
def rule0Outer (sep : Dict (α × α) (List α)) (g : Graph α) (p : α × α) : Except Err (Graph α) := do
  if ← g.isConnected p.1 p.2 then pure g
  else g.nodes.foldlM (rule0Body sep p.1 p.2) g

theorem rule0_eq (g : Graph α) : g.rule0 sep = (pairs g.nodes).foldlM (rule0Outer sep) g := rfl

theorem rule0Outer_spec (hg0 : g0.PG) (hs : ∀ p ∈ pairs g0.nodeList, ¬ Conn g0 p.1 p.2 → (dget sep p).isSome)
    {p : α × α} (hp : p ∈ pairs g0.nodeList) (g : Graph α) (hg : R0 g0 sep g) :
    OkP (fun g' => R0 g0 sep g' ∧ (∀ x y, ¬ To g0 sep y x → Dir g x y → Dir g' x y)) (rule0Outer sep g p) ∧
    (∀ w, Claims g0 sep p.1 w p.2 → ¬ To g0 sep w p.1 → ¬ To g0 sep w p.2 →
      OkP (fun g' => Dir g' p.1 w ∧ Dir g' p.2 w) (rule0Outer sep g p)) := by
  classical
  obtain ⟨u, v⟩ := p
  obtain ⟨hu, hv, hlt⟩ := (mem_pairs_iff hg0.wf.nodup u v).1 hp
  have hu' : u ∈ g.nodeList := by rw [hg.nodes]; exact hu
  have hv' : v ∈ g.nodeList := by rw [hg.nodes]; exact hv
  unfold rule0Outer
  simp only [ic_dec hg.pg.wf hu' hv', bind, Except.bind]
  by_cases hc : Conn g u v
  · simp only [hc, decide_true, if_true]
    exact ⟨⟨g, rfl, hg, fun _ _ _ h => h⟩, fun w hw _ _ => absurd ((hg.conn _ _).1 hc) hw.2.2.2.2.1⟩
  · simp only [hc, decide_false]
    have hnc : ¬ Conn g0 u v := fun h => hc ((hg.conn _ _).2 h)
    have hsp := hs _ hp hnc
    have hn : g.nodes = g0.nodeList := hg.nodes
    rw [if_neg (by simp), hn]
    constructor
    · refine foldlM_inv (P := fun g' => R0 g0 sep g' ∧ (∀ x y, ¬ To g0 sep y x → Dir g x y → Dir g' x y)) _ ?_ g
        ⟨hg, fun _ _ _ h => h⟩
      intro g1 w hw h1
      obtain ⟨g2, e2, r2, k2, _⟩ := rule0Body_spec hw hg0 hp hnc hsp g1 h1.1
      exact ⟨g2, e2, r2, fun x y hn hd => k2 x y hn (h1.2 x y hn hd)⟩
    · intro w hcl n1 n2
      have hwm : w ∈ g0.nodeList := (Conn.mem hg0.wf hcl.2.2.1).2
      obtain ⟨g', e, h⟩ := foldlM_est (I := R0 g0 sep) (P := fun g' => Dir g' u w ∧ Dir g' v w) (f := rule0Body sep u v)
        g0.nodeList w hwm
        (fun g1 w hw h1 => by
          obtain ⟨g2, e2, r2, _, _⟩ := rule0Body_spec hw hg0 hp hnc hsp g1 h1
          exact ⟨g2, e2, r2⟩)
        (fun g1 h1 => by
          obtain ⟨g2, e2, _, _, d2⟩ := rule0Body_spec hwm hg0 hp hnc hsp g1 h1
          exact ⟨g2, e2, d2 hcl⟩)
        (fun g1 w' hw' h1 hd => by
          obtain ⟨g2, e2, _, k2, _⟩ := rule0Body_spec hw' hg0 hp hnc hsp g1 h1
          exact ⟨g2, e2, k2 _ _ n1 hd.1, k2 _ _ n2 hd.2⟩) g hg
      exact ⟨g', e, h.2⟩

theorem rule0_spec (hg0 : g0.PG) (hs : ∀ p ∈ pairs g0.nodeList, ¬ Conn g0 p.1 p.2 → (dget sep p).isSome) :
    ∃ g, g0.rule0 sep = .ok g ∧ R0 g0 sep g ∧
      ∀ u w v, Claims g0 sep u w v → ¬ To g0 sep w u → ¬ To g0 sep w v → Dir g u w ∧ Dir g v w := by
  have h00 : R0 g0 sep g0 := ⟨hg0, Via.refl g0, rfl, fun _ _ => Iff.rfl, fun _ _ _ => Or.inl rfl, fun _ => rfl⟩
  rw [rule0_eq]
  obtain ⟨g, e, hg⟩ := foldlM_inv (P := R0 g0 sep) (f := rule0Outer sep) (pairs g0.nodes)
    (fun g p hp hg => by
      obtain ⟨⟨g', e, h⟩, _⟩ := rule0Outer_spec hg0 hs hp g hg
      exact ⟨g', e, h.1⟩) g0 h00
  refine ⟨g, e, hg, ?_⟩
  have key : ∀ u w v, (u, v) ∈ pairs g0.nodeList → Claims g0 sep u w v → ¬ To g0 sep w u → ¬ To g0 sep w v →
      Dir g u w ∧ Dir g v w := by
    intro u w v hp hcl n1 n2
    obtain ⟨g', e', h'⟩ := foldlM_est (I := R0 g0 sep) (P := fun g' => Dir g' u w ∧ Dir g' v w) (f := rule0Outer sep)
      (pairs g0.nodes) (u, v) hp
      (fun g p hp hg => by
        obtain ⟨⟨g', e, h⟩, _⟩ := rule0Outer_spec hg0 hs hp g hg
        exact ⟨g', e, h.1⟩)
      (fun g hg => (rule0Outer_spec hg0 hs hp g hg).2 w hcl n1 n2)
      (fun g p hp hg hd => by
        obtain ⟨⟨g', e, h⟩, _⟩ := rule0Outer_spec hg0 hs hp g hg
        exact ⟨g', e, h.2 _ _ n1 hd.1, h.2 _ _ n2 hd.2⟩) g0 h00
    rw [e] at e'
    cases e'
    exact h'.2
  intro u w v hcl n1 n2
  have hm1 := Conn.mem hg0.wf hcl.2.2.1
  have hm2 := Conn.mem hg0.wf hcl.2.2.2.1
  rcases hcl.2.2.2.2.2 with ⟨hlt, _⟩ | ⟨hlt, _⟩
  · exact key u w v ((mem_pairs_iff hg0.wf.nodup u v).2 ⟨hm1.1, hm2.1, hlt⟩) hcl n1 n2
  · exact (key v w u ((mem_pairs_iff hg0.wf.nodup v u).2 ⟨hm2.1, hm1.1, hlt⟩) (hcl.symm hg0.wf) n2 n1).symm

end Graph
end Cdmir
