import Verif.Props.PDAG
import Verif.Lemmas.Pattern
import Verif.Lemmas.Same

/-! Properties C23-C25: dag2cpdag. -/

namespace Cdmir
open Graph Spec

section
variable {α : Type} [DecidableEq α] {g g' : Graph α}

/-- The steps of `dag2cpdag` on an acyclic graph: first the pattern, then orientation steps. -/
theorem dag2cpdag_steps {so : List α → List α} (hso : ∀ l, (so l).Perm l) (h : Reachable .digraph g)
    (ac : Acyclic (Dir g)) : ∃ g1 g', dag2cpdag so g = .ok g' ∧ IsPattern g.nodes (Dir g) g1 ∧
      g1.orientByMeekRules = .ok g' ∧ Relation.ReflTransGen (Step PatAny) g1 g' ∧ Oriented g1 g' := by
  obtain ⟨s, g1, e, e1, hp⟩ := cpdag_pattern hso h.dg ac
  obtain ⟨g', e2, _, hs, _⟩ := orientByMeekRules_spec (N := g1.nodeList) ⟨hp.pg, rfl⟩
  refine ⟨g1, g', ?_, hp, e2, hs, ReflSteps.oriented hp.pg hs⟩
  unfold dag2cpdag
  rw [e]
  simp only [bind, Except.bind]
  rw [e1]
  exact e2

/-- **C23.** `dag2cpdag` of an acyclic graph: no exception, same nodes, same adjacencies, every unshielded collider
directed, every edge directed or undirected, without self-loops. -/
theorem c23_dag2cpdag {so : List α → List α} (hso : ∀ l, (so l).Perm l) (h : Reachable .digraph g)
    (ac : Acyclic (Dir g)) :
    ∃ g', dag2cpdag so g = .ok g' ∧ ReachableSimple .pdag g' ∧ g'.nodes = g.nodes ∧
      (∀ u v, Conn g' u v ↔ Adj (Dir g) u v) ∧
      (∀ u v, Conn g' u v → Und g' u v ∨ Dir g' u v ∨ Dir g' v u) ∧
      ∀ u w v, VStruct (Dir g) u w v → Dir g' u w ∧ Dir g' v w := by
  obtain ⟨g1, g', e, hp, _, _, ho⟩ := dag2cpdag_steps hso h ac
  have hdir : ∀ u v, Dir g1 u v → Dir g' u v := by
    intro u v hd
    have := ho.keep u v (Or.inl (Dir.not_und hp.pg.wf hd))
    unfold Dir at *
    rw [this]; exact hd
  refine ⟨g', e, ho.via.reachableSimple hp.rs, ho.nodes.trans hp.nodes,
    fun u v => (ho.conn u v).trans (hp.conn u v), ?_, ?_⟩
  · intro u v hc
    have hadj := (hp.conn _ _).1 ((ho.conn _ _).1 hc)
    by_cases h1 : ∃ x, VStruct (Dir g) u v x
    · exact Or.inr (Or.inl (hdir _ _ ((hp.dir _ _).2 h1)))
    · by_cases h2 : ∃ x, VStruct (Dir g) v u x
      · exact Or.inr (Or.inr (hdir _ _ ((hp.dir _ _).2 h2)))
      · exact ho.und u v ((hp.und _ _).2 ⟨hadj, h1, h2⟩) (ac.adj_ne hadj)
  · intro u w v hv
    exact ⟨hdir _ _ ((hp.dir _ _).2 ⟨v, hv⟩),
      hdir _ _ ((hp.dir _ _).2 ⟨u, hv.1.symm, hv.2.2.1, hv.2.1, fun h => hv.2.2.2 h.symm⟩)⟩

/-- The pattern is determined by the nodes, the adjacencies and the unshielded colliders. -/
theorem IsPattern.same {N : List α} {D D' : α → α → Prop} (ha : IsPattern N D g) (hb : IsPattern N D' g')
    (h1 : ∀ u v, Adj D u v ↔ Adj D' u v) (h2 : ∀ u w v, VStruct D u w v ↔ VStruct D' u w v) : Same g g' := by
  have hw := ha.pg.wf
  have hw' := hb.pg.wf
  have hd : ∀ u v, Dir g u v ↔ Dir g' u v := by
    intro u v; rw [ha.dir, hb.dir]; simp only [h2]
  have hu : ∀ u v, Und g u v ↔ Und g' u v := by
    intro u v; rw [ha.und, hb.und]; simp only [h1, h2]
  have hc : ∀ u v, Conn g u v ↔ Conn g' u v := by
    intro u v; rw [ha.conn, hb.conn, h1]
  have hcases : ∀ u v, Conn g u v → Und g u v ∨ Dir g u v ∨ Dir g v u := by
    intro u v h
    rw [ha.und, ha.dir, ha.dir]
    rw [ha.conn] at h
    tauto
  refine Same.of_getEdge hw hw' (ha.pg.kind.trans hb.pg.kind.symm) (ha.nodes.trans hb.nodes.symm) ?_
  intro u mu v mv
  by_cases h : Conn g u v
  · rcases hcases u v h with k | k | k
    · have := (hu u v).1 k
      unfold Und at *
      rw [k, this]
    · have := (hd u v).1 k
      unfold Dir at *
      rw [k, this]
    · have := (hd v u).1 k
      rw [dir_iff hw] at k
      rw [dir_iff hw'] at this
      rw [getEdge_ok hw mu mv, getEdge_ok hw' (by rw [hb.nodes, ← ha.nodes]; exact mu) (by rw [hb.nodes, ← ha.nodes]; exact mv)]
      unfold edge?
      rw [k.1, k.2, this.1, this.2]
  · have h' := mt (hc u v).2 h
    rw [conn_iff hw] at h
    rw [conn_iff hw'] at h'
    rw [getEdge_ok hw mu mv, getEdge_ok hw' (by rw [hb.nodes, ← ha.nodes]; exact mu) (by rw [hb.nodes, ← ha.nodes]; exact mv)]
    unfold edge?
    rw [Option.not_isSome_iff_eq_none.1 h, Option.not_isSome_iff_eq_none.1 h']
    split <;> split <;> simp_all

/-- **C25.** Markov equivalent DAGs on the same node sequence get the same CPDAG: the same answer to every edge query, and
`graph_equal` says so. The set iteration orders of the two runs need not agree. -/
theorem c25_equivalent {so so' : List α → List α} (hso : ∀ l, (so l).Perm l) (hso' : ∀ l, (so' l).Perm l)
    (h : Reachable .digraph g) (h' : Reachable .digraph g') (ac : Acyclic (Dir g)) (ac' : Acyclic (Dir g'))
    (hn : g.nodes = g'.nodes) (h1 : ∀ u v, Adj (Dir g) u v ↔ Adj (Dir g') u v)
    (h2 : ∀ u w v, VStruct (Dir g) u w v ↔ VStruct (Dir g') u w v) :
    ∃ c c', dag2cpdag so g = .ok c ∧ dag2cpdag so' g' = .ok c' ∧ c.graphEqual c' = .ok true ∧
      ∀ u v, c.getEdge u v = c'.getEdge u v := by
  obtain ⟨p, c, e, hp, em, _, ho⟩ := dag2cpdag_steps hso h ac
  obtain ⟨p', c', e', hp', em', _, ho'⟩ := dag2cpdag_steps hso' h' ac'
  rw [← hn] at hp'
  have hs := (IsPattern.same hp hp' h1 h2).orientByMeekRules
  rw [em, em'] at hs
  have hs : Same c c' := hs
  have hg := ho.via.PG hp.pg
  have hg' := ho'.via.PG hp'.pg
  exact ⟨c, c', e, e', hs.graphEqual hg.good hg'.good (by rw [hg.kind]; simp), hs.getEdge⟩

/-- Two triangles of the graph share an edge. -/
def TwoTriangles (D : α → α → Prop) (a b c d : α) : Prop :=
  c ≠ d ∧ Adj D a b ∧ Adj D a c ∧ Adj D b c ∧ Adj D a d ∧ Adj D b d

/-- **C24, what holds.** The full claim is: in `dag2cpdag(G)` an edge is directed `u -> v` iff every DAG with the
adjacencies and unshielded colliders of `G` has `u -> v`. It is false (`c24_false`) because `rule3` and `rule4` are unsound.
When no two triangles of `G` share an edge, the direction "only if" holds: every such DAG extends the result. Missing:
the other direction. -/
theorem c24_sound_partial {so : List α → List α} (hso : ∀ l, (so l).Perm l) (h : Reachable .digraph g)
    (ac : Acyclic (Dir g)) (ht : ∀ a b c d, ¬ TwoTriangles (Dir g) a b c d) {c : Graph α} (hc : dag2cpdag so g = .ok c)
    (D : α → α → Prop) (ad : Acyclic D) (h1 : ∀ u v, Adj D u v ↔ Adj (Dir g) u v)
    (h2 : ∀ u w v, VStruct D u w v ↔ VStruct (Dir g) u w v) : ∀ u v, Dir c u v → D u v := by
  obtain ⟨p, c', e, hp, em, hs, ho⟩ := dag2cpdag_steps hso h ac
  rw [hc] at e
  cases e
  have hx : Extends D p := (hp.extends_iff ac D).2 ⟨ad, h1, h2⟩
  have := extends_steps (D := D) (S := fun g' => ∀ u v, Conn g' u v ↔ Conn p u v) ?_ ?_ hp.pg (fun _ _ => Iff.rfl) hx hs
  · exact this.dir
  · intro a b ha hst hS u v
    rw [(hst.oriented ha).conn]; exact hS u v
  · intro a ha hS hxa u v huv hu hpat
    have adj : ∀ x y, Conn a x y → Adj (Dir g) x y := fun x y hxy => (hp.conn _ _).1 ((hS _ _).1 hxy)
    rcases hpat with hpat | hpat | hpat | hpat
    · exact pat1_sound ha hxa huv hpat
    · exact pat2_sound ha hxa huv hpat
    · obtain ⟨x, y, _, _, hxy, k1, k2, k3, k4, _⟩ := hpat
      exact absurd ⟨hxy, adj _ _ (hu.conn ha.wf), adj _ _ (k1.conn ha.wf), (adj _ _ (Dir.conn ha.wf k2)).symm,
        adj _ _ (k3.conn ha.wf), (adj _ _ (Dir.conn ha.wf k4)).symm⟩ (ht u v x y)
    · obtain ⟨x, y, hxv, _, _, _, _, k1, k2, k3, k4, _⟩ := hpat
      exact absurd ⟨hxv, (adj _ _ k4), (adj _ _ (k1.conn ha.wf)).symm, (adj _ _ (k3.conn ha.wf)).symm,
        adj _ _ (Dir.conn ha.wf k2), adj _ _ (hu.conn ha.wf)⟩ (ht y u x v)

end

section examples

theorem acyclic_of_check {α : Type} [DecidableEq α] {g : Graph α} (h : Reachable .digraph g) (ha : g.isAcyclic = .ok true) :
    Acyclic (Dir g) := by
  obtain ⟨b, hb, hi⟩ := c15_is_acyclic h
  rw [ha] at hb
  exact hi.1 (Except.ok.inj hb).symm

theorem exCollDag_reachable : Reachable .digraph exCollDag := (built_reachable _ _ _ (by decide) (by decide)).reachable
theorem exCollDag_acyclic : Acyclic (Dir exCollDag) := acyclic_of_check exCollDag_reachable (by decide +kernel)

example := c23_dag2cpdag (so := List.reverse) (fun l => List.reverse_perm l) exCollDag_reachable exCollDag_acyclic
example : (dag2cpdag List.reverse exCollDag).map (fun g => (g.getEdge 1 3, g.getEdge 3 4, g.getEdge 1 2)) =
    .ok (.ok (some (dE 1 3)), .ok (some (dE 3 4)), .ok none) := by decide +kernel

/-- `exCollDag` has no triangle at all. -/
example : ∀ a b c d, ¬ TwoTriangles (Dir exCollDag) a b c d := by
  rintro a b c d ⟨_, h1, h2, h3, _⟩
  have hm : ∀ x y, Adj (Dir exCollDag) x y → x ∈ exCollDag.nodes ∧ y ∈ exCollDag.nodes := by
    rintro x y (h | h)
    · exact Dir.mem exCollDag_reachable.dg.wf h
    · exact (Dir.mem exCollDag_reachable.dg.wf h).symm
  have key : ∀ a ∈ exCollDag.nodes, ∀ b ∈ exCollDag.nodes, ∀ c ∈ exCollDag.nodes,
      (exCollDag.getEdge a b = .ok (some (dE a b)) ∨ exCollDag.getEdge b a = .ok (some (dE b a))) →
      (exCollDag.getEdge a c = .ok (some (dE a c)) ∨ exCollDag.getEdge c a = .ok (some (dE c a))) →
      ¬ (exCollDag.getEdge b c = .ok (some (dE b c)) ∨ exCollDag.getEdge c b = .ok (some (dE c b))) := by decide +kernel
  exact key a (hm _ _ h1).1 b (hm _ _ h1).2 c (hm _ _ h2).2 h1 h2 h3

/-- 1 -> 2 -> 3. -/
def exFwd : Graph Nat := built .digraph [1, 2, 3] [dE 1 2, dE 2 3]
/-- 1 <- 2 <- 3: the same adjacencies and no unshielded collider either. -/
def exBwd : Graph Nat := built .digraph [1, 2, 3] [dE 2 1, dE 3 2]

example : ∃ c c', dag2cpdag id exFwd = .ok c ∧ dag2cpdag List.reverse exBwd = .ok c' ∧ c.graphEqual c' = .ok true ∧
    c.getEdge 1 2 = .ok (some (uE 1 2)) := by
  have r1 : Reachable .digraph exFwd := (built_reachable _ _ _ (by decide) (by decide)).reachable
  have r2 : Reachable .digraph exBwd := (built_reachable _ _ _ (by decide) (by decide)).reachable
  have m1 : ∀ x y, Dir exFwd x y → x ∈ [1, 2, 3] ∧ y ∈ [1, 2, 3] := fun x y h => Dir.mem r1.dg.wf h
  have m2 : ∀ x y, Dir exBwd x y → x ∈ [1, 2, 3] ∧ y ∈ [1, 2, 3] := fun x y h => Dir.mem r2.dg.wf h
  have k : ∀ x ∈ [1, 2, 3], ∀ y ∈ [1, 2, 3], (exFwd.getEdge x y = .ok (some (dE x y)) ↔ exBwd.getEdge y x = .ok (some (dE y x))) := by
    decide +kernel
  have hd : ∀ x y, Dir exFwd x y ↔ Dir exBwd y x := by
    intro x y
    by_cases hm : x ∈ [1, 2, 3] ∧ y ∈ [1, 2, 3]
    · exact k x hm.1 y hm.2
    · exact ⟨fun h => absurd (m1 _ _ h) hm, fun h => absurd (m2 _ _ h).symm hm⟩
  have nv1 : ∀ x ∈ [1, 2, 3], ∀ w ∈ [1, 2, 3], ∀ y ∈ [1, 2, 3], x ≠ y → exFwd.getEdge x w = .ok (some (dE x w)) →
    exFwd.getEdge y w ≠ .ok (some (dE y w)) := by decide +kernel
  have nv2 : ∀ x ∈ [1, 2, 3], ∀ w ∈ [1, 2, 3], ∀ y ∈ [1, 2, 3], x ≠ y → exBwd.getEdge x w = .ok (some (dE x w)) →
    exBwd.getEdge y w ≠ .ok (some (dE y w)) := by decide +kernel
  obtain ⟨c, c', e, e', h1, h2⟩ := c25_equivalent (so := id) (so' := List.reverse) (fun l => List.Perm.refl l)
    (fun l => List.reverse_perm l) r1 r2 (acyclic_of_check r1 (by decide +kernel)) (acyclic_of_check r2 (by decide +kernel)) rfl
    (fun u v => by unfold Adj; rw [hd u v, hd v u]; exact Or.comm)
    (fun u w v => by
      constructor
      · rintro ⟨a, b, c, _⟩
        exact absurd c (nv1 u (m1 _ _ b).1 w (m1 _ _ b).2 v (m1 _ _ c).1 a b)
      · rintro ⟨a, b, c, _⟩
        exact absurd c (nv2 u (m2 _ _ b).1 w (m2 _ _ b).2 v (m2 _ _ c).1 a b))
  refine ⟨c, c', e, e', h1, ?_⟩
  have h3 : (dag2cpdag id exFwd).map (fun c => c.getEdge 1 2) = .ok (.ok (some (uE 1 2))) := by decide +kernel
  rw [e] at h3
  exact Except.ok.inj h3

/-- Nodes in the order 5, ..., 0. -/
def exBad : Graph Nat := built .digraph [5, 4, 3, 2, 1, 0]
  [dE 0 2, dE 0 3, dE 0 4, dE 0 5, dE 1 2, dE 2 3, dE 3 4, dE 4 5]

theorem exBad_reachable : Reachable .digraph exBad := (built_reachable _ _ _ (by decide) (by decide)).reachable

/-- **C24 is false.** `dag2cpdag` directs `u -> v` although the DAG itself, a member of its class, has `v -> u`. -/
theorem c24_false : ∃ (g : Graph Nat) (c : Graph Nat) (u v : Nat),
    Reachable .digraph g ∧ Acyclic (Dir g) ∧ dag2cpdag id g = .ok c ∧ Dir c u v ∧ ¬ Dir g u v ∧ Dir g v u := by
  have ac : Acyclic (Dir exBad) := acyclic_of_check exBad_reachable (by decide +kernel)
  obtain ⟨c, e, _⟩ := c23_dag2cpdag (so := id) (fun l => List.Perm.refl l) exBad_reachable ac
  have h1 : (dag2cpdag id exBad).map (fun c => c.getEdge 4 3) = .ok (.ok (some (dE 4 3))) := by decide +kernel
  rw [e] at h1
  have h2 : exBad.getEdge 4 3 ≠ .ok (some (dE 4 3)) := by decide +kernel
  have h3 : exBad.getEdge 3 4 = .ok (some (dE 3 4)) := by decide +kernel
  exact ⟨exBad, c, 4, 3, exBad_reachable, ac, e, Except.ok.inj h1, h2, h3⟩

end examples
end Cdmir
