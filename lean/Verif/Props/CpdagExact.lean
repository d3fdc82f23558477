import Verif.Props.Cpdag

/-! Property C24, without a condition on the graph: `dag2cpdag` is exact as soon as none of its directions is wrong. -/

namespace Cdmir
open Graph Spec

section
variable {α : Type} [DecidableEq α] {g p : Graph α}

/-- A completed PDAG is closed under the rules, with a reason for every direction. -/
theorem Spec.IsCpdag.closed {G : α → α → Prop} {N : List α} (hnd : N.Nodup) (ac : Acyclic G) (hN : ∀ a b, G a b → a ∈ N ∧ b ∈ N)
    (h : IsCpdag G p) : Complete.Closed N (Dir p) (Und p) ∧ ∀ a b, Complete.C (Dir p) (Und p) a b ↔ Adj G a b := by
  have e1 : Dir p = Complete.Meek G := funext fun a => funext fun b => propext
    ((h.dir a b).trans (Complete.meek_iff hnd ac hN a b))
  have e2 : Und p = Complete.Free G := funext fun a => funext fun b => propext
    ((h.und a b).trans (Complete.free_iff hnd ac hN a b))
  rw [e1, e2]
  exact ⟨Complete.meek_closed ac hN, Complete.meek_adj ac⟩

/-- **C24, no condition on the DAG.** `dag2cpdag` returns, and its result is the completed PDAG of the class iff none of the
directions it chose is missing in some member of the class. So a wrong direction is the only way in which it can fail. (The
unconditional claim is false: `c24_false`.) -/
theorem c24_exact_partial {so : List α → List α} (hso : ∀ l, (so l).Perm l) (h : Reachable .digraph g) (ac : Acyclic (Dir g)) :
    ∃ c, dag2cpdag so g = .ok c ∧
      (IsCpdag (Dir g) c ↔ ∀ D, InClass (Dir g) D → ∀ u v, Dir c u v → D u v) := by
  obtain ⟨p, c, hc, hp, em, hs, ho⟩ := dag2cpdag_steps hso h ac
  refine ⟨c, hc, fun k D hD u v q => (k.dir u v).1 q D hD, fun sound => ?_⟩
  obtain ⟨c', e, hrs, hn, hconn, hdu, hv⟩ := c23_dag2cpdag hso h ac
  rw [hc] at e
  cases e
  have hw := (ho.via.PG hp.pg).wf
  have hgw := h.dg.wf
  have self : InClass (Dir g) (Dir g) := Complete.InClass.self ac
  have cl := (c20_meek_closed hp.rs.toReachable em).1
  have hN : ∀ a b, Dir g a b → a ∈ g.nodeList ∧ b ∈ g.nodeList := fun a b k => Dir.mem hgw k
  have ne : ∀ {x y}, Und c x y → y ≠ x := by
    rintro x y k rfl
    have := Und.conn hw k
    rw [conn_iff hw, hrs.noLoop y] at this
    simp at this
  have tri : ∀ {a b}, Adj (Dir g) a b → Dir c a b ∨ Dir c b a ∨ Und c a b := by
    intro a b k
    have := hdu a b ((hconn a b).2 k)
    tauto
  have sub : ∀ {a b}, Complete.Meek (Dir g) a b → Dir c a b := by
    intro a b k
    induction k with
    | coll q => exact (hv _ _ _ q).1
    | @r1 d a b m h1 h2 h3 h4 ih =>
      rcases tri h1 with q | q | q
      · exact q
      · exact absurd ((Complete.Meek.r1 m h1 h2 h3 h4).sound self) (ac.asymm _ _ (sound _ self _ _ q))
      · exact absurd ⟨d, h2, ih, fun z => h3 ((hconn _ _).1 z), q⟩ (cl a b).1
    | @r2 a d b m1 m2 h1 ih1 ih2 =>
      rcases tri h1 with q | q | q
      · exact q
      · exact absurd ((Complete.Meek.r2 m1 m2 h1).sound self) (ac.asymm _ _ (sound _ self _ _ q))
      · exact absurd ⟨d, ih1, ih2, q⟩ (cl a b).2.1
    | @r3 a v x b m1 m2 h1 h2 h3 h4 h5 h6 ih1 ih2 =>
      rcases tri h5 with q | q | q
      · exact q
      · exact absurd ((Complete.Meek.r3 m1 m2 h1 h2 h3 h4 h5 h6).sound self) (ac.asymm _ _ (sound _ self _ _ q))
      · have nd : ∀ {y}, Dir c y b → ¬ Dir c a y := fun hy z => (cl a b).2.1 ⟨_, z, hy, q⟩
        rcases tri h3 with z1 | z1 | z1
        · exact absurd z1 (nd ih1)
        · rcases tri h4 with z2 | z2 | z2
          · exact absurd z2 (nd ih2)
          · exact absurd ⟨h1, sound _ self _ _ z1, sound _ self _ _ z2, h2⟩ h6
          · exact absurd ⟨v, h1, z1, fun z => h2 ((hconn _ _).1 z), z2⟩ (cl a x).1
        · rcases tri h4 with z2 | z2 | z2
          · exact absurd z2 (nd ih2)
          · exact absurd ⟨x, h1.symm, z2, fun z => h2 ((hconn _ _).1 z).symm, z1⟩ (cl a v).1
          · exact absurd ⟨v, x, ne z1, ne z2, h1, z1, ih1, z2, ih2, q⟩ (cl a b).2.2.1
  have hd : ∀ u v, Dir c u v ↔ Complete.Meek (Dir g) u v := fun u v =>
    ⟨fun k => (Complete.meek_iff hgw.nodup ac hN u v).1 (fun D hD => sound D hD u v k), sub⟩
  refine ⟨fun u v => (hd u v).trans (Complete.meek_iff hgw.nodup ac hN u v).symm, fun u v => ?_⟩
  rw [Complete.free_iff hgw.nodup ac hN u v]
  constructor
  · intro k
    exact ⟨(hconn _ _).1 (Und.conn hw k), fun q => Dir.not_und hw (sub q) k, fun q => Dir.not_und hw (sub q) (Und.symm hw k)⟩
  · intro k
    rcases tri k.1 with q | q | q
    · exact absurd ((hd _ _).1 q) k.2.1
    · exact absurd ((hd _ _).1 q) k.2.2
    · exact q

end

section examples

/-- The condition is met by a graph with two triangles on one edge: everything in it is undirected. -/
def exDiamond : Graph Nat := built .digraph [1, 2, 3, 4] [dE 1 2, dE 1 3, dE 2 3, dE 1 4, dE 2 4]

theorem exDiamond_reachable : Reachable .digraph exDiamond := (built_reachable _ _ _ (by decide) (by decide)).reachable
theorem exDiamond_acyclic : Acyclic (Dir exDiamond) := acyclic_of_check exDiamond_reachable (by decide +kernel)

theorem exDiamond_cpdag : ∃ c, dag2cpdag id exDiamond = .ok c ∧ IsCpdag (Dir exDiamond) c := by
  obtain ⟨c, e, k⟩ := c24_exact_partial (so := id) (fun l => List.Perm.refl l) exDiamond_reachable exDiamond_acyclic
  refine ⟨c, e, k.2 (fun D _ u v q => ?_)⟩
  exfalso
  have h1 : (dag2cpdag id exDiamond).map (fun c => decide (∀ u ∈ c.nodes, ∀ v ∈ c.nodes, c.getEdge u v ≠ .ok (some (dE u v)))) =
      .ok true := by decide +kernel
  rw [e] at h1
  have h1 := of_decide_eq_true (Except.ok.inj h1)
  obtain ⟨c', e', hrs, _⟩ := c23_dag2cpdag (so := id) (fun l => List.Perm.refl l) exDiamond_reachable exDiamond_acyclic
  rw [e] at e'
  cases e'
  have hm := Dir.mem hrs.reachable.pg.wf q
  exact h1 u hm.1 v hm.2 q

end examples
end Cdmir
