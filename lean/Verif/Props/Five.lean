import Verif.Props.CpdagExact
import Verif.Props.PcClass
import Verif.Props.GESConsistent
import Verif.Props.BicConsistent
import Verif.Lemmas.Five
import Verif.Lemmas.MeekFirst

/-! Properties C24, C43, C44, C56, C162, C163 on at most five variables: there the two unsound rules do no harm. -/

set_option linter.unusedSectionVars false

namespace Cdmir
open Graph Spec GES

section
variable {α : Type} [DecidableEq α] {g : Graph α}

/-- On at most five nodes no direction chosen by `dag2cpdag` is missing in some member of the class. -/
theorem five_sound {so : List α → List α} (hso : ∀ l, (so l).Perm l) (h : Reachable .digraph g) (ac : Acyclic (Dir g)) (h5 : g.nodes.length ≤ 5)
    {c : Graph α} (hc : dag2cpdag so g = .ok c) : ∀ D, InClass (Dir g) D → ∀ u v, Dir c u v → D u v := by
  obtain ⟨p, c', e, hp, em, hs, ho⟩ := dag2cpdag_steps hso h ac
  clear hs ho
  rw [hc] at e
  cases e
  have hgw := h.dg.wf
  have hN : g.nodeList.Nodup := hgw.nodup
  have hfin : ∀ a b, Dir g a b → a ∈ g.nodeList ∧ b ∈ g.nodeList := fun a b k => Dir.mem hgw k
  obtain ⟨g1, r1, r2, hfirst⟩ := orient_first (N := p.nodeList) ⟨hp.pg, rfl⟩ em
  have x0 : ∀ D, InClass (Dir g) D → Extends D p := fun D hD => (hp.extends_iff ac D).2 ⟨hD.acyclic, hD.adj, hD.vstruct⟩
  have o1 : Oriented p g1 := ReflSteps.oriented hp.pg r1
  have pg1 : g1.PG := o1.via.PG hp.pg
  have x1 : ∀ D, InClass (Dir g) D → Extends D g1 := fun D hD => extends_steps (S := fun _ => True) (fun _ _ _ _ _ => trivial)
    (fun g hg _ hx a b hab _ hp => pat1_sound hg hx hab hp) hp.pg trivial (x0 D hD) r1
  have main : (∀ D, InClass (Dir g) D → Extends D c) ∧ Oriented g1 c ∧ c.PG := by
    clear em hc
    induction r2 with
    | refl => exact ⟨x1, Oriented.refl _, pg1⟩
    | @tail a b _ hst ih =>
      obtain ⟨hx, ho, hg⟩ := ih
      obtain ⟨s, t, hst', hu, hpat, hto⟩ := id hst
      refine ⟨fun D hD => extends_step hg (hx D hD) hst' hu hto ?_, ho.trans (hst.oriented hg) pg1, hto.PG hg⟩
      have hxD := hx D hD
      have fin := hD.fin hfin
      have adj : ∀ {x y}, Conn a x y → x ≠ y → Adj D x y := fun k q => (hxD.adj _ _).2 ⟨q, k⟩
      have uc : ∀ {x y}, Und a x y → Conn a x y := fun k => k.conn hg.wf
      have comp : ∀ {x y}, Dir a x y → ∀ D', InClass D D' → D' x y := fun k D' h' => (hx D' (hD.trans' h')).dir _ _ k
      have Us : ∀ x y, Und a x y → Und a y x := fun x y k => k.symm hg.wf
      have vdir : ∀ {x y z}, VStruct D x y z → Dir p x y := fun k => (hp.dir _ _).2 ⟨_, (hD.vstruct _ _ _).1 k⟩
      have U1 : ∀ x y z, Und a x y → ¬ VStruct D x y z := fun x y z k q =>
        Dir.not_und hg.wf (ho.dir pg1 (o1.dir hp.pg (vdir q))) k
      have U2 : ∀ x q r z, Und a q r → VStruct D x q z → x ≠ r → Adj D x r := by
        intro x q r z k k' hne
        have h1 : Und g1 q r := by
          by_contra hn
          exact ho.not_und hn k
        exact (hD.adj _ _).2 ((hp.conn _ _).1 (hfirst x q r (vdir k') hne.symm h1))
      rcases hpat with k | k | k | k
      · exact pat1_sound hg hxD hst' k
      · exact pat2_sound hg hxD hst' k
      · obtain ⟨v, x, k1, k2, k3, k4, k5, k6, k7, _⟩ := k
        by_cases hvx : Conn a v x
        · exact five3 hN h5 hD.acyclic fin Us U1 U2 (comp k5) (comp k7) (adj hvx k3) hu k4 k6 (adj (uc hu) hst') (adj (uc k4) k1.symm)
            (adj (uc k6) k2.symm)
        · exact pat3_sound hg hxD hst' k1 k2 k3 k4 k5 k6 k7 hu hvx
      · obtain ⟨u, v, k1, k2, k3, k4, k5, k6, k7, k8, k9, _⟩ := k
        exact five4 hN h5 hD.acyclic fin Us U1 U2 (comp k7) k1 (fun q => k5 ((hxD.adj _ _).1 q).2) k6 k8 hu (adj (uc k6) k2)
          (adj (uc k8) k3) (adj (uc hu) hst') (adj k9 k4)
  exact fun D hD => (main.1 D hD).dir

/-- **C24, at most five nodes.** `dag2cpdag` returns the completed PDAG of the class. (The full claim is false from six nodes on: `c24_six_false`.) -/
theorem c24_five_partial {so : List α → List α} (hso : ∀ l, (so l).Perm l) (h : Reachable .digraph g) (ac : Acyclic (Dir g))
    (h5 : g.nodes.length ≤ 5) : ∃ c, dag2cpdag so g = .ok c ∧ IsCpdag (Dir g) c := by
  obtain ⟨c, e, hi⟩ := c24_exact_partial hso h ac
  exact ⟨c, e, hi.2 (five_sound hso h ac h5 e)⟩

/-- **C43, at most five nodes.** Going to the CPDAG and back ends in the class. -/
theorem c43_five_partial {so : List α → List α} (hso : ∀ l, (so l).Perm l) (h : Reachable .digraph g) (ac : Acyclic (Dir g))
    (h5 : g.nodes.length ≤ 5) :
    ∃ c d, dag2cpdag so g = .ok c ∧ pdag2dag g.nodes.length c = .ok d ∧ d.nodes = g.nodes ∧ InClass (Dir g) (Dir d) := by
  obtain ⟨c, hc, hrs, hn, hconn, hdu', hv⟩ := c23_dag2cpdag hso h ac
  have sound := five_sound hso h ac h5 hc
  have self : InClass (Dir g) (Dir g) := Complete.InClass.self ac
  have hdu : ∀ u v, Conn c u v → Dir c u v ∨ Dir c v u ∨ Und c u v := fun u v k => by
    have := hdu' u v k
    tauto
  have hx : Extends (Dir g) c :=
    ⟨ac, fun u v => ⟨fun k => ⟨ac.adj_ne k, (hconn u v).2 k⟩, fun k => (hconn u v).1 k.2⟩, sound _ self,
      fun u w v h1 h2 h3 h4 => hv u w v ⟨h1, h2, h3, h4⟩⟩
  have ht' := c27_terminates_iff hrs hdu
  obtain ⟨d, hd⟩ := ht'.2.1.1 (ht'.1.2 ⟨_, hx⟩)
  have hlen : c.nodes.length = g.nodes.length := congrArg List.length hn
  rw [hlen] at hd
  rcases c26_extension hrs hdu g.nodes.length with ⟨d', e, _, hn', he⟩ | e
  · rw [hd] at e
    cases e
    have hadj : ∀ u v, Adj (Dir d) u v ↔ Adj (Dir g) u v := by
      intro u v
      rw [he.adj, hconn]
      exact ⟨fun k => k.2, fun k => ⟨ac.adj_ne k, k⟩⟩
    refine ⟨c, d, hc, hd, hn'.trans hn, he.acyclic, hadj, fun u w v => ?_⟩
    constructor
    · rintro ⟨h1, h2, h3, h4⟩
      have := he.collider u w v h1 h2 h3 h4
      exact ⟨h1, sound _ self _ _ this.1, sound _ self _ _ this.2, fun k => h4 ((hadj u v).2 k)⟩
    · intro k
      have := hv u w v k
      exact ⟨k.1, he.dir _ _ this.1, he.dir _ _ this.2, fun q => k.2.2.2 ((hadj u v).1 q)⟩
  · rw [hd] at e; cases e

/-- **C44, at most five variables.** PC with the d-separation test of a DAG returns the completed PDAG of its class. -/
theorem c44_five_partial {G : Graph α} (hG : Reachable .digraph G) (ac : Acyclic (Dir G)) (h5 : G.nodes.length ≤ 5) {alpha : ℚ} (ha : 0 < alpha)
    (ha' : alpha ≤ 1) (search : CITest α (Cache (ℚ × ℚ)) ℚ → List α → ℚ → Cache (ℚ × ℚ) → Except Err (Graph α × Sep α × Cache (ℚ × ℚ)))
    (hsearch : search = adjacencySearch ∨ search = fastAdjacencySearch) :
    ∃ r st', pcFit search (dsepTest G.nodes G) G.nodes alpha [] = .ok (r, st') ∧ IsCpdag (Dir G) r.causal := by
  obtain ⟨r, st', c, e, ec, _, h⟩ := c32_pc_dsep hG ac (so := id) (fun l => List.Perm.refl l) ha ha' search hsearch
  obtain ⟨c', ec', hc⟩ := c24_five_partial (so := id) (fun l => List.Perm.refl l) hG ac h5
  rw [ec] at ec'
  cases ec'
  refine ⟨r, st', e, fun u v => ?_, fun u v => ?_⟩
  · rw [← hc.dir]; unfold Dir; rw [h]
  · rw [← hc.und]; unfold Und; rw [h]

section ges
variable {K : Type} [Field K] [LinearOrder K] [IsStrictOrderedRing K] {R : α → α → Prop}

/-- The proviso of `c56_fit_partial` and `c162_fit_partial` holds on five variables. -/
theorem visited_five {names : List α} (h5 : names.length ≤ 5) {so : List α → List α} (hso : ∀ l, (so l).Perm l)
    {score : α → List α → K} {maxP : ℚ} {g0 : Graph α} (r0 : ReachableSimple .pdag g0) (n0 : g0.nodes = names) (c0 : ∀ u v, ¬ Conn g0 u v) {t : K} :
    ∀ d c, Visited so maxP score (g0, t) d → dag2cpdag so d = .ok c → ∀ D, InClass (Dir d) D → ∀ u v, Dir c u v → D u v := by
  intro d c hv e
  obtain ⟨st, i, j, T, ch, g1, hd, hdn, he, hrun⟩ := hv
  have hst : st.1.nodeList = names := by
    have hdu : DU g0 := ⟨r0, fun u v k => absurd k (c0 u v)⟩
    rcases hrun with ⟨h1, _⟩ | ⟨m, h1, _, h2, _⟩
    · obtain ⟨_, _, _, q, _⟩ := insertRounds hso hdu h1
      exact q.trans n0
    · obtain ⟨_, _, k2, q, _⟩ := insertRounds hso hdu h1
      obtain ⟨_, _, _, q', _⟩ := deleteRounds hso k2 h2
      exact q'.trans (q.trans n0)
  have hlen : d.nodes.length ≤ 5 := by
    have : d.nodeList = names := hdn.trans hst
    exact (congrArg List.length this).trans_le h5
  exact five_sound hso hd.toReachable he.acyclic hlen e

/-- **C56, at most five variables**: no proviso. (False for six variables: `c56_wrong_score`.) -/
theorem c56_five_partial {names : List α} (hN : names.Nodup) (h5 : names.length ≤ 5) {so : List α → List α}
    (hso : ∀ l, (so l).Perm l) {score : α → List α → K} (hsc : SetScore score) (hse : ScoreEquiv score names) (maxP : ℚ) :
    ∃ (g : Graph α) (s : K) (N : Nat) (G : α → α → Prop), (∀ n, N ≤ n → fit n so maxP score names = .ok (g, s)) ∧
      g.nodes = names ∧ Acyclic G ∧ IsCpdag G g ∧ DagScore score names G s ∧
      ∀ D, InClass G D → ∀ i j, D i j → ∀ t, DagScore score names (fun a b => D a b ∧ ¬ (a = i ∧ b = j)) t → t ≤ s := by
  obtain ⟨g0, r0, n0, c0, hf⟩ := c56_fit_partial hN hso hsc hse maxP
  obtain ⟨g, s, N, G, e, _, hn, h1, h2, h3, h4, _⟩ := hf (visited_five h5 hso r0 n0 c0)
  exact ⟨g, s, N, G, e, hn, h1, h2, h3, h4⟩

/-- **C162, at most five variables**: with a locally consistent score `GES.fit` returns the completed PDAG of the true DAG and its score. (False for six:
`c162_false`.) -/
theorem c162_five {names : List α} (hN : names.Nodup) (h5 : names.length ≤ 5) {so : List α → List α} (hso : ∀ l, (so l).Perm l)
    {score : α → List α → K} (hsc : SetScore score) (hse : ScoreEquiv score names) {maxP : ℚ} (hmaxP : (names.length : ℚ) ≤ maxP + 2)
    (acR : Acyclic R) (finR : ∀ a b, R a b → a ∈ names ∧ b ∈ names) (hlc : LocallyConsistent score names R) :
    ∃ (g : Graph α) (s : K) (N : Nat), (∀ n, N ≤ n → fit n so maxP score names = .ok (g, s)) ∧
      g.nodes = names ∧ IsCpdag R g ∧ DagScore score names R s := by
  obtain ⟨g0, r0, n0, c0, hf⟩ := c162_fit_partial hN hso hsc hse hmaxP acR finR hlc
  exact hf (visited_five h5 hso r0 n0 c0)

end ges
end

namespace LocalScore
open Fisher
variable {n : Nat} {C : Matrix (Fin n) (Fin n) ℝ} {R : Fin n → Fin n → Prop}

/-- **C163, at most five variables**: no proviso. -/
theorem c163_five (h5 : n ≤ 5) (ac : Acyclic R) (hM : LinearModel R C) (hF : Faithful R C) {lambda : ℝ} (hla : 0 < lambda)
    {so : List (Fin n) → List (Fin n)} (hso : ∀ l, (so l).Perm l) {maxP : ℚ} (hmaxP : (n : ℚ) ≤ maxP + 2) :
    ∃ N0, ∀ N, N0 ≤ N → ∃ score : Fin n → List (Fin n) → ℝ,
      (∀ j l, l.Nodup → j ∉ l → bic (corrOf C) N lambda j l = .ok (score j l)) ∧
      ∃ (g : Graph (Fin n)) (s : ℝ) (M : Nat), (∀ m, M ≤ m → fit m so maxP score (List.finRange n) = .ok (g, s)) ∧
        g.nodes = List.finRange n ∧ IsCpdag R g ∧ DagScore score (List.finRange n) R s := by
  obtain ⟨N0, h⟩ := c163_consistent ac hM hF hla
  refine ⟨N0, fun N hN => ?_⟩
  obtain ⟨score, hv, hset, heq, hlc⟩ := h N hN
  exact ⟨score, hv, c162_five (List.nodup_finRange n) (by rw [List.length_finRange]; exact h5) hso hset heq
    (by rw [List.length_finRange]; exact hmaxP) ac (fun a b _ => ⟨List.mem_finRange a, List.mem_finRange b⟩) hlc⟩

end LocalScore

section examples

/-- Five is the largest number: `exBad` has six nodes. -/
theorem c24_six_false : ∃ (g c : Graph Nat), Reachable .digraph g ∧ Acyclic (Dir g) ∧ g.nodes.length = 6 ∧ dag2cpdag id g = .ok c ∧
    ¬ IsCpdag (Dir g) c := by
  have ac : Acyclic (Dir exBad) := acyclic_of_check exBad_reachable (by decide +kernel)
  obtain ⟨c, e, _⟩ := c23_dag2cpdag (so := id) (fun l => List.Perm.refl l) exBad_reachable ac
  refine ⟨exBad, c, exBad_reachable, ac, rfl, e, fun hc => ?_⟩
  have h1 : (dag2cpdag id exBad).map (fun c => c.getEdge 4 3) = .ok (.ok (some (dE 4 3))) := by decide +kernel
  rw [e] at h1
  have h2 : exBad.getEdge 4 3 ≠ .ok (some (dE 4 3)) := by decide +kernel
  exact h2 ((hc.dir 4 3).1 (Except.ok.inj h1) _ (Complete.InClass.self ac))

/-- Four nodes that are all adjacent, and 4 -> 3: two triangles share an edge, and 3 is an unshielded collider. -/
def exClique5 : Graph Nat := built .digraph [0, 1, 2, 3, 4] [dE 0 1, dE 0 2, dE 0 3, dE 1 2, dE 1 3, dE 2 3, dE 4 3]
theorem exClique5_reachable : Reachable .digraph exClique5 := (built_reachable _ _ _ (by decide) (by decide)).reachable
theorem exClique5_acyclic : Acyclic (Dir exClique5) := acyclic_of_check exClique5_reachable (by decide +kernel)

example := c24_five_partial (so := List.reverse) (fun l => List.reverse_perm l) exClique5_reachable exClique5_acyclic (by decide)
example : (dag2cpdag List.reverse exClique5).map (fun c => (c.getEdge 0 3, c.getEdge 4 3, c.getEdge 0 1)) =
    .ok (.ok (some (dE 0 3)), .ok (some (dE 4 3)), .ok (some (uE 0 1))) := by decide +kernel
example := c43_five_partial (so := List.reverse) (fun l => List.reverse_perm l) exClique5_reachable exClique5_acyclic (by decide)
example := c44_five_partial exClique5_reachable exClique5_acyclic (by decide) (alpha := 1 / 20) (by decide +kernel) (by decide +kernel) adjacencySearch
  (Or.inl rfl)
example := c56_five_partial (names := [0, 1, 2, 3, 4]) (by decide) (by decide) (so := List.reverse) (fun l => List.reverse_perm l) (famScore_set exFam)
  (famScore_equiv (by decide) (by decide)) 2
example := c162_five (names := [0, 1, 2]) (by decide) (by decide) (so := id) (fun _ => List.Perm.refl _)
  (famScore_set exFam) (famScore_equiv (by decide) (by decide)) (maxP := 3 / 2) (by norm_num) exMeet_acyclic exMeet_fin exMeet_consistent
example := LocalScore.c163_five (by decide) Fisher.exAcyclic Fisher.exLinear Fisher.exFaithful (lambda := 1) one_pos (so := id)
  (fun _ => List.Perm.refl _) (maxP := 3 / 2) (by norm_num)

end examples
end Cdmir
