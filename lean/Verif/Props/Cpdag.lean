import Verif.Props.Dag2Cpdag
import Verif.Props.Pdag2dag
import Verif.Lemmas.Essential

/-! Property C24, the strong form on graphs without two triangles sharing an edge, and property C43: going from a DAG to
its CPDAG and back. -/

namespace Cdmir
open Graph Spec

section
variable {α : Type} [DecidableEq α] {g p a : Graph α}

/-- Every directed edge has a reason: it is part of an unshielded collider or was forced by `rule1` or `rule2`. -/
def Reasons (a : Graph α) : Prop :=
  ∀ u v, Dir a u v → (∃ d, d ≠ u ∧ Dir a d v ∧ ¬ Conn a d u) ∨ (∃ d, d ≠ v ∧ Dir a d u ∧ ¬ Conn a d v) ∨
    ∃ d, Dir a u d ∧ Dir a d v

theorem reasons_steps (ht : ∀ a b c d, ¬ TwoTriangles (Dir g) a b c d) (hp : IsPattern g.nodes (Dir g) p)
    (hs : Relation.ReflTransGen (Step PatAny) p a) : a.PG ∧ (∀ x y, Conn a x y ↔ Adj (Dir g) x y) ∧ Reasons a := by
  induction hs with
  | refl =>
    refine ⟨hp.pg, hp.conn, fun u v hd => Or.inl ?_⟩
    obtain ⟨x, h1, h2, h3, h4⟩ := (hp.dir u v).1 hd
    refine ⟨x, h1.symm, (hp.dir x v).2 ⟨u, h1.symm, h3, h2, fun k => h4 k.symm⟩, fun k => h4 ?_⟩
    exact ((hp.conn x u).1 k).symm
  | @tail a a' _ hst ih =>
    obtain ⟨pa, ca, ra⟩ := ih
    obtain ⟨x, y, hxy, hu, hpat, ho⟩ := id hst
    have hw := pa.wf
    have cc : ∀ s t, Conn a' s t ↔ Conn a s t := ho.conn pa (hu.conn hw)
    have keep : ∀ {s t}, Dir a s t → Dir a' s t := fun hd => ho.dir_keep pa hxy hu hd
    refine ⟨ho.PG pa, fun s t => (cc s t).trans (ca s t), ?_⟩
    have lift : ∀ u v, ((∃ d, d ≠ u ∧ Dir a d v ∧ ¬ Conn a d u) ∨ (∃ d, d ≠ v ∧ Dir a d u ∧ ¬ Conn a d v) ∨
        ∃ d, Dir a u d ∧ Dir a d v) → ((∃ d, d ≠ u ∧ Dir a' d v ∧ ¬ Conn a' d u) ∨
        (∃ d, d ≠ v ∧ Dir a' d u ∧ ¬ Conn a' d v) ∨ ∃ d, Dir a' u d ∧ Dir a' d v) := by
      rintro u v (⟨d, h1, h2, h3⟩ | ⟨d, h1, h2, h3⟩ | ⟨d, h1, h2⟩)
      · exact Or.inl ⟨d, h1, keep h2, fun k => h3 ((cc _ _).1 k)⟩
      · exact Or.inr (Or.inl ⟨d, h1, keep h2, fun k => h3 ((cc _ _).1 k)⟩)
      · exact Or.inr (Or.inr ⟨d, keep h1, keep h2⟩)
    have adj : ∀ s t, Conn a s t → Adj (Dir g) s t := fun s t k => (ca s t).1 k
    intro u v hd
    by_cases h1 : u = x ∧ v = y
    · obtain ⟨rfl, rfl⟩ := h1
      refine lift u v ?_
      rcases hpat with hpat | hpat | hpat | hpat
      · obtain ⟨d, h1, h2, h3, _⟩ := hpat
        exact Or.inr (Or.inl ⟨d, h1, h2, h3⟩)
      · obtain ⟨d, h1, h2, _⟩ := hpat
        exact Or.inr (Or.inr ⟨d, h1, h2⟩)
      · obtain ⟨s, t, _, _, hst', k1, k2, k3, k4, _⟩ := hpat
        exact absurd ⟨hst', adj _ _ (hu.conn hw), adj _ _ (k1.conn hw), (adj _ _ (Dir.conn hw k2)).symm,
          adj _ _ (k3.conn hw), (adj _ _ (Dir.conn hw k4)).symm⟩ (ht u v s t)
      · obtain ⟨s, t, hsv, _, _, _, _, k1, k2, k3, k4, _⟩ := hpat
        exact absurd ⟨hsv, (adj _ _ k4), (adj _ _ (k1.conn hw)).symm, (adj _ _ (k3.conn hw)).symm,
          adj _ _ (Dir.conn hw k2), adj _ _ (hu.conn hw)⟩ (ht t u s v)
    · by_cases h2 : u = y ∧ v = x
      · obtain ⟨rfl, rfl⟩ := h2
        exact absurd hd (Dir.asymm (ho.PG pa).wf (ho.dir_self pa hxy))
      · exact lift u v (ra u v ((ho.dir_other pa h1 h2).1 hd))

/-- Facts about `dag2cpdag` of a DAG in which no two triangles share an edge. -/
theorem cpdag_closed {so : List α → List α} (hso : ∀ l, (so l).Perm l) (h : Reachable .digraph g)
    (ac : Acyclic (Dir g)) (ht : ∀ a b c d, ¬ TwoTriangles (Dir g) a b c d) {c : Graph α} (hc : dag2cpdag so g = .ok c) :
    ReachableSimple .pdag c ∧ c.nodeList = g.nodeList ∧ (∀ u v, Conn c u v ↔ Adj (Dir g) u v) ∧
      Complete.Closed c.nodeList (Dir c) (Und c) ∧ (∀ a b, Complete.C (Dir c) (Und c) a b ↔ Conn c a b) ∧
      (∀ D, InClass (Dir g) D → ∀ u v, Dir c u v → D u v) ∧ ∀ u w v, VStruct (Dir g) u w v → Dir c u w ∧ Dir c v w := by
  obtain ⟨p, c', e, hp, em, hs, ho⟩ := dag2cpdag_steps hso h ac
  rw [hc] at e
  cases e
  obtain ⟨c', e, hrs, hn, hconn, hdu, hv⟩ := c23_dag2cpdag hso h ac
  rw [hc] at e
  cases e
  have sound : ∀ D, InClass (Dir g) D → ∀ u v, Dir c u v → D u v := fun D hD =>
    c24_sound_partial hso h ac ht hc D hD.acyclic hD.adj hD.vstruct
  have hw := (ho.via.PG hp.pg).wf
  have hC : ∀ a b, Complete.C (Dir c) (Und c) a b ↔ Conn c a b := by
    intro a b
    constructor
    · rintro (k | k | k)
      · exact Dir.conn hw k
      · exact Conn.symm hw (Dir.conn hw k)
      · exact Und.conn hw k
    · intro k
      rcases hdu a b k with k | k | k
      · exact Or.inr (Or.inr k)
      · exact Or.inl k
      · exact Or.inr (Or.inl k)
  have cl := (c20_meek_closed hp.rs.toReachable em).1
  obtain ⟨_, _, hr⟩ := reasons_steps ht hp hs
  have hdg : ∀ u v, Dir c u v → Dir g u v := sound (Dir g) ⟨ac, fun _ _ => Iff.rfl, fun _ _ _ => Iff.rfl⟩
  refine ⟨hrs, hn, hconn, ⟨fun a b k => (Dir.mem hw k).1, fun a b k => (Conn.mem hw (Und.conn hw k)).1,
    fun a b k => Und.symm hw k, ?_, fun a b k => Dir.not_und hw k, ?_, ?_, ?_, ?_, ?_⟩, hC, sound, hv⟩
  · intro a k
    have := Und.conn hw k
    rw [conn_iff hw, hrs.noLoop a] at this
    simp at this
  · intro u a b h1 h2 hne
    rw [hC]
    by_contra k
    exact (cl a b).1 ⟨u, hne, h1, k, h2⟩
  · intro a v b h1 h2 k
    exact (cl a b).2.1 ⟨v, h1, h2, k⟩
  · intro a v x b hvx _ h1 h2 h3 h4 k
    have ne : ∀ {x y}, Und c x y → y ≠ x := by
      rintro x y k rfl
      have := Und.conn hw k
      rw [conn_iff hw, hrs.noLoop y] at this
      simp at this
    exact (cl a b).2.2.1 ⟨v, x, ne h1, ne h3, hvx, h1, h2, h3, h4, k⟩
  · intro u k
    exact ac u (Relation.TransGen.mono hdg _ _ k)
  · intro a b k
    simp only [hC]
    rcases hr a b k with q | q | q
    · exact Or.inl q
    · exact Or.inr (Or.inl q)
    · exact Or.inr (Or.inr (Or.inl q))

/-- **C24, the strongest form that holds.** The full claim - for every DAG `G`, `dag2cpdag(G)` directs `u -> v` iff every
DAG of the class of `G` has `u -> v` - is false (`c24_false`), because `rule3` and `rule4` are unsound. When no two triangles
of `G` share an edge it holds in both directions: the directed edges of the result are exactly the edges common to all
members of the class, and the undirected ones are exactly those that members of the class orient both ways. Missing: the
graphs with two triangles on one edge. -/
theorem c24_class_partial {so : List α → List α} (hso : ∀ l, (so l).Perm l) (h : Reachable .digraph g)
    (ac : Acyclic (Dir g)) (ht : ∀ a b c d, ¬ TwoTriangles (Dir g) a b c d) :
    ∃ c, dag2cpdag so g = .ok c ∧ (∀ u v, Dir c u v ↔ ∀ D, InClass (Dir g) D → D u v) ∧
      ∀ u v, Und c u v ↔ (∃ D, InClass (Dir g) D ∧ D u v) ∧ ∃ D, InClass (Dir g) D ∧ D v u := by
  obtain ⟨c, hc, _⟩ := c23_dag2cpdag hso h ac
  obtain ⟨hrs, hn, hconn, hcl, hC, sound, hv⟩ := cpdag_closed hso h ac ht hc
  have hgw := h.dg.wf
  have self : InClass (Dir g) (Dir g) := ⟨ac, fun _ _ => Iff.rfl, fun _ _ _ => Iff.rfl⟩
  have asym : ∀ {D}, InClass (Dir g) D → ∀ u v, D u v → ¬ D v u := fun hD => hD.acyclic.asymm
  have both : ∀ u v, Und c u v → ∃ D, InClass (Dir g) D ∧ D u v := by
    intro u v k
    obtain ⟨D, h1, h2, h3, h4, h5⟩ := hcl.either_way (by rw [hn]; exact hgw.nodup) ac
      (fun a b k => by rw [hn]; exact (Dir.mem hgw k).2)
      (fun a b => by rw [hC, hconn])
      (fun x w y hxy k1 k2 hn' => (hv x w y ⟨hxy, k1, k2, fun q => hn' ((hC x y).2 ((hconn x y).2 q))⟩).1) k
    refine ⟨D, ⟨h2, fun a b => by rw [h3, hC, hconn], fun x w y => ?_⟩, h1⟩
    constructor
    · rintro ⟨k1, k2, k3, k4⟩
      rw [h3] at k4
      have := h5 x w y k1 k2 k3 k4
      refine ⟨k1, sound _ self _ _ this.1, sound _ self _ _ this.2, fun q => k4 ?_⟩
      rw [hC, hconn]; exact q
    · rintro k
      have := hv x w y k
      refine ⟨k.1, h4 _ _ this.1, h4 _ _ this.2, fun q => k.2.2.2 ?_⟩
      rw [h3, hC, hconn] at q; exact q
  have tri : ∀ u v, Adj (Dir g) u v → Dir c u v ∨ Dir c v u ∨ Und c u v := fun u v k =>
    (hC u v).2 ((hconn u v).2 k)
  refine ⟨c, hc, fun u v => ⟨fun k D hD => sound D hD u v k, fun k => ?_⟩, fun u v => ⟨fun k => ⟨both u v k, ?_⟩, ?_⟩⟩
  · have hg := k _ self
    rcases tri u v (Or.inl hg) with q | q | q
    · exact q
    · exact absurd (sound _ self _ _ q) (asym self _ _ hg)
    · obtain ⟨D, hD, hvu⟩ := both v u (hcl.symm _ _ q)
      exact absurd (k D hD) (asym hD _ _ hvu)
  · exact both v u (hcl.symm _ _ k)
  · rintro ⟨⟨D, hD, k1⟩, ⟨D', hD', k2⟩⟩
    rcases tri u v ((hD.adj u v).1 (Or.inl k1)) with q | q | q
    · exact absurd (sound _ hD' _ _ q) (asym hD' _ _ k2)
    · exact absurd (sound _ hD _ _ q) (asym hD _ _ k1)
    · exact q

/-- **C43, what holds.** The full claim - `pdag2dag(dag2cpdag(G))` returns a DAG of the class of `G`, for every DAG `G` - is
false (`c43_false`). It holds when no two triangles of `G` share an edge; missing are the other graphs. -/
theorem c43_round_trip_partial {so : List α → List α} (hso : ∀ l, (so l).Perm l) (h : Reachable .digraph g)
    (ac : Acyclic (Dir g)) (ht : ∀ a b c d, ¬ TwoTriangles (Dir g) a b c d) :
    ∃ c d, dag2cpdag so g = .ok c ∧ pdag2dag g.nodes.length c = .ok d ∧ d.nodes = g.nodes ∧ InClass (Dir g) (Dir d) := by
  obtain ⟨c, hc, _⟩ := c23_dag2cpdag hso h ac
  obtain ⟨hrs, hn, hconn, hcl, hC, sound, hv⟩ := cpdag_closed hso h ac ht hc
  have self : InClass (Dir g) (Dir g) := ⟨ac, fun _ _ => Iff.rfl, fun _ _ _ => Iff.rfl⟩
  have hdu : ∀ u v, Conn c u v → Dir c u v ∨ Dir c v u ∨ Und c u v := fun u v k => (hC u v).2 k
  have hx : Extends (Dir g) c := by
    refine ⟨ac, fun u v => ⟨fun k => ⟨ac.adj_ne k, (hconn u v).2 k⟩, fun k => (hconn u v).1 k.2⟩, sound _ self, ?_⟩
    intro u w v h1 h2 h3 h4
    exact hv u w v ⟨h1, h2, h3, h4⟩
  have ht' := c27_terminates_iff hrs hdu
  obtain ⟨d, hd⟩ := ht'.2.1.1 (ht'.1.2 ⟨_, hx⟩)
  have hlen : c.nodes.length = g.nodes.length := congrArg List.length hn
  rw [hlen] at hd
  rcases c26_extension hrs hdu g.nodes.length with ⟨d', e, _, hn', he⟩ | e
  · rw [hd] at e
    cases e
    have hadj : ∀ u v, Adj (Dir d) u v ↔ Adj (Dir g) u v := by
      intro u v
      rw [he.adj, hconn]
      exact ⟨fun k => k.2, fun k => ⟨ac.adj_ne k, k⟩⟩
    refine ⟨c, d, hc, hd, hn'.trans hn, he.acyclic, hadj, fun u w v => ?_⟩
    constructor
    · rintro ⟨h1, h2, h3, h4⟩
      have := he.collider u w v h1 h2 h3 h4
      exact ⟨h1, sound _ self _ _ this.1, sound _ self _ _ this.2, fun k => h4 ((hadj u v).2 k)⟩
    · intro k
      have := hv u w v k
      exact ⟨k.1, he.dir _ _ this.1, he.dir _ _ this.2, fun q => k.2.2.2 ((hadj u v).1 q)⟩
  · rw [hd] at e; cases e

end

section examples

/-- Two triangles sharing an edge are absent: decided on the node list. -/
theorem noTwoTriangles_of_check {g : Graph Nat} (h : Reachable .digraph g)
    (hc : ∀ a ∈ g.nodes, ∀ b ∈ g.nodes, ∀ c ∈ g.nodes, ∀ d ∈ g.nodes, c ≠ d → g.isConnected a b = .ok true →
      g.isConnected a c = .ok true → g.isConnected b c = .ok true → g.isConnected a d = .ok true →
      g.isConnected b d ≠ .ok true) : ∀ a b c d, ¬ TwoTriangles (Dir g) a b c d := by
  have hw := h.dg.wf
  have cn : ∀ {x y}, Adj (Dir g) x y → Conn g x y := by
    rintro x y (k | k)
    · exact Dir.conn hw k
    · exact Conn.symm hw (Dir.conn hw k)
  rintro a b c d ⟨h0, h1, h2, h3, h4, h5⟩
  exact hc a (Conn.mem hw (cn h1)).1 b (Conn.mem hw (cn h1)).2 c (Conn.mem hw (cn h2)).2 d (Conn.mem hw (cn h4)).2 h0
    (cn h1) (cn h2) (cn h3) (cn h4) (cn h5)

/-- A triangle 1, 2, 3 with an edge into it and a collider below: directed and undirected edges in the result. -/
def exTriTail : Graph Nat := built .digraph [1, 2, 3, 4, 5] [dE 1 2, dE 1 3, dE 2 3, dE 3 4, dE 5 4]

theorem exTriTail_reachable : Reachable .digraph exTriTail := (built_reachable _ _ _ (by decide) (by decide)).reachable

example := c24_class_partial (so := id) (fun l => List.Perm.refl l) exTriTail_reachable
  (acyclic_of_check exTriTail_reachable (by decide +kernel)) (noTwoTriangles_of_check exTriTail_reachable (by decide +kernel))
example := c43_round_trip_partial (so := id) (fun l => List.Perm.refl l) exTriTail_reachable
  (acyclic_of_check exTriTail_reachable (by decide +kernel)) (noTwoTriangles_of_check exTriTail_reachable (by decide +kernel))
example : (dag2cpdag id exTriTail).map (fun c => (c.getEdge 1 2, c.getEdge 3 4)) =
    .ok (.ok (some (uE 1 2)), .ok (some (dE 3 4))) := by decide +kernel

/-- Eight nodes, sixteen edges. -/
def exHang : Graph Nat := built .digraph [1, 5, 3, 2, 0, 4, 6, 7]
  [dE 0 1, dE 0 2, dE 0 3, dE 0 4, dE 0 5, dE 1 3, dE 1 4, dE 1 5, dE 1 6, dE 1 7, dE 2 3, dE 2 5, dE 3 4, dE 4 5, dE 4 6,
    dE 6 7]

theorem exHang_reachable : Reachable .digraph exHang := (built_reachable _ _ _ (by decide) (by decide)).reachable

theorem exHang_cycle : (dag2cpdag id exHang).map (fun c => (c.getEdge 0 3, c.getEdge 3 4, c.getEdge 4 0)) =
    .ok (.ok (some (dE 0 3)), .ok (some (dE 3 4)), .ok (some (dE 4 0))) := by decide +kernel

/-- **C43 is false, and so is "the result of `dag2cpdag` has no directed cycle".** For this acyclic graph `dag2cpdag` returns
a graph with the directed cycle 0 -> 3 -> 4 -> 0, and `pdag2dag` of it never returns. -/
theorem c43_false : ∃ (g c : Graph Nat), Reachable .digraph g ∧ Acyclic (Dir g) ∧ dag2cpdag id g = .ok c ∧
    ¬ Acyclic (Dir c) ∧ ∀ n, pdag2dag n c = .error .fuel := by
  have ac : Acyclic (Dir exHang) := acyclic_of_check exHang_reachable (by decide +kernel)
  obtain ⟨c, e, hrs, _, _, hdu, _⟩ := c23_dag2cpdag (so := id) (fun l => List.Perm.refl l) exHang_reachable ac
  have h1 := exHang_cycle
  rw [e] at h1
  have h1 := Except.ok.inj h1
  simp only [Prod.mk.injEq] at h1
  have hcyc : ¬ Acyclic (Dir c) := fun k => k 0 (((Relation.TransGen.single (show Dir c 0 3 from h1.1)).tail (show Dir c 3 4 from h1.2.1)).tail
    (show Dir c 4 0 from h1.2.2))
  refine ⟨exHang, c, exHang_reachable, ac, e, hcyc, ?_⟩
  refine (c27_terminates_iff hrs (fun u v k => ?_)).2.2.1 ?_
  · rcases hdu u v k with q | q | q
    · exact Or.inr (Or.inr q)
    · exact Or.inl q
    · exact Or.inr (Or.inl q)
  · rintro ⟨D, hD⟩
    exact hcyc (fun u k => hD.acyclic u (Relation.TransGen.mono hD.dir _ _ k))

end examples
end Cdmir
