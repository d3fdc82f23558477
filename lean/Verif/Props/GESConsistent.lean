import Verif.Props.GESValid
import Verif.Lemmas.Consistent

/-! Property C162: with a locally consistent score `GES.fit` finds the class of the true DAG. -/

set_option linter.unusedSectionVars false

namespace Cdmir
open Graph Spec GES

section
variable {α : Type} [DecidableEq α] {K : Type} [Field K] [LinearOrder K] [IsStrictOrderedRing K] {g : Graph α} {R G : α → α → Prop}

/-- **C162, inclusion** (Meek's conjecture, proved by Chickering): if every d-separation of the DAG `G` holds in the DAG `R`, then either both are
equivalent, or some DAG equivalent to `G` has an edge that can be removed such that every d-separation still holds in `R`. -/
theorem c162_inclusion {N : List α} (hN : N.Nodup) (acR : Acyclic R) (finR : ∀ a b, R a b → a ∈ N ∧ b ∈ N) (acG : Acyclic G)
    (finG : ∀ a b, G a b → a ∈ N ∧ b ∈ N) (h : ∀ x y (Z : α → Prop), ¬ Z x → ¬ Z y → DSep G x y Z → DSep R x y Z) :
    InClass R G ∨ ∃ D i j, InClass G D ∧ D i j ∧
      ∀ x y (Z : α → Prop), ¬ Z x → ¬ Z y → DSep (fun a b => D a b ∧ ¬ (a = i ∧ b = j)) x y Z → DSep R x y Z :=
  inclusion N.length N rfl hN R G acR finR acG finG h

/-- **C162, equivalent DAGs** have the same d-separations, and conversely. -/
theorem c162_equivalent {N : List α} (hN : N.Nodup) (acR : Acyclic R) (finR : ∀ a b, R a b → a ∈ N ∧ b ∈ N) (acG : Acyclic G)
    (finG : ∀ a b, G a b → a ∈ N ∧ b ∈ N) :
    InClass R G ↔ ∀ x y (Z : α → Prop), ¬ Z x → ¬ Z y → (DSep G x y Z ↔ DSep R x y Z) := by
  constructor
  · intro h x y Z hx hy
    exact ⟨inClass_imap hN acR finR h x y Z hx hy, inClass_imap hN acG finG (h.symm' acR) x y Z hx hy⟩
  · intro h
    rcases c162_inclusion hN acR finR acG finG (fun x y Z hx hy => (h x y Z hx hy).1) with q | ⟨D, i, j, hD, hij, hI⟩
    · exact q
    · exfalso
      -- the ends of the removed edge would be separated in `G`
      have acM : Acyclic (Minus D i j) := hD.acyclic.sub fun _ _ k => k.1
      have hne : i ≠ j := fun q => hD.acyclic.irrefl j (by rw [q] at hij; exact hij)
      have k := hI i j (fun w => Minus D i j w j) (fun q => q.2 ⟨rfl, rfl⟩) (acM.irrefl j) (dsep_parents acM hne
        (by rintro (q | q)
            · exact q.2 ⟨rfl, rfl⟩
            · exact hD.acyclic.asymm _ _ hij q.1)
        (fun q => hD.acyclic i (Relation.TransGen.head' hij (Relation.ReflTransGen.mono (fun _ _ k => k.1) _ _ q))))
      have kG := (h i j (fun w => Minus D i j w j) (fun q => q.2 ⟨rfl, rfl⟩) (acM.irrefl j)).2 k
      exact not_dsep_of_adj hne ((hD.adj i j).1 (Or.inl hij)) kG

theorem isCpdag_class (acR : Acyclic R) (h : InClass R G) (hc : IsCpdag G g) : IsCpdag R g := by
  have e : ∀ D, InClass R D ↔ InClass G D := fun D => ⟨fun k => (h.symm' acR).trans' k, fun k => h.trans' k⟩
  exact ⟨fun u v => (hc.dir u v).trans (by simp only [e]), fun u v => (hc.und u v).trans (by simp only [e])⟩

/-- **C162.** The score is decomposable, equal on equivalent DAGs and locally consistent with the DAG `R` over the variables, and `max_parents` is
not smaller than the number of variables minus two. Provided that in this run `dag2cpdag` never chooses a direction that is missing in some
member of the class, `GES.fit` returns the completed PDAG of `R` and the score of `R`. (Without the proviso the claim is false: `c162_false`.) -/
theorem c162_fit_partial {names : List α} (hN : names.Nodup) {so : List α → List α} (hso : ∀ l, (so l).Perm l)
    {score : α → List α → K} (hsc : SetScore score) (hse : ScoreEquiv score names) {maxP : ℚ} (hmaxP : (names.length : ℚ) ≤ maxP + 2)
    (acR : Acyclic R) (finR : ∀ a b, R a b → a ∈ names ∧ b ∈ names) (hlc : LocallyConsistent score names R) :
    ∃ g0 : Graph α, ReachableSimple .pdag g0 ∧ g0.nodes = names ∧ (∀ u v, ¬ Conn g0 u v) ∧
      ((∀ d c, Visited so maxP score (g0, (names.map (fun v => score v [])).sum) d → dag2cpdag so d = .ok c →
          ∀ D, InClass (Dir d) D → ∀ u v, Dir c u v → D u v) →
        ∃ (g : Graph α) (s : K) (N : Nat), (∀ n, N ≤ n → fit n so maxP score names = .ok (g, s)) ∧
          g.nodes = names ∧ IsCpdag R g ∧ DagScore score names R s) := by
  obtain ⟨g0, r0, n0, c0, hf⟩ := c54_fit hN hso hsc maxP
  refine ⟨g0, r0, n0, c0, fun hall => ?_⟩
  have start := right_start (score := score) r0 n0 c0
  have insR : ∀ t, Relation.ReflTransGen (InsertRound so maxP score) (g0, (names.map (fun v => score v [])).sum) t →
      ∃ G, Right score names t G := by
    intro t k
    induction k with
    | refl => exact ⟨_, start⟩
    | @tail b c hb hr ih =>
      obtain ⟨G, hR⟩ := ih
      exact right_insert hsc hse hso hR hr (fun i j T c' g1 d hB e1 hd hn he ec => hall d _
        ⟨b, i, j, T, c', g1, hd, hn, he, Or.inl ⟨hb, hB, e1⟩⟩ ec)
  have finOf : ∀ {t G}, Right score names t G → ∀ a b, G a b → a ∈ names ∧ b ∈ names := fun h => h.nodes ▸ h.comp.fin
  have scoreOf : ∀ {t G}, Right score names t G → ∀ D, InClass G D → DagScore score names D t.2 := by
    intro t G h D hD
    have sD := dagScore_exists hN hsc (fun a b k => (hD.fin (finOf h) a b k).1)
    rw [hse G D (finOf h) h.comp.ac hD _ _ h.score sD]
    exact sD
  -- the forward phase ends in an independence map
  have mid : ∀ {m G}, Right score names m G → InsertOptimal maxP score m.1 → IMap R G := by
    intro m G h om
    refine imap_of_insertOptimal hN hsc acR finR hlc h.comp.ac (finOf h) h.score (fun i hi j hj hne hna hac t ht => ?_)
    refine right_insertOptimal hsc hse h om (Complete.InClass.self h.comp.ac) hi hj hna hac (fun l hl hp => ?_) ht
    have hG : ∀ p ∈ l, G p j := fun p hp' => (h.comp.cp.dir p j).1 (hp p hp') G (Complete.InClass.self h.comp.ac)
    have hn : (i :: j :: l).Nodup := by
      refine List.nodup_cons.2 ⟨fun q => ?_, List.nodup_cons.2 ⟨fun q => h.comp.ac.irrefl j (hG j q), hl⟩⟩
      rcases List.mem_cons.1 q with q | q
      · exact hne q
      · exact hna (Or.inl (hG i q))
    have := (List.subperm_of_subset hn (l₂ := names) (by
      intro x hx
      rcases List.mem_cons.1 hx with rfl | hx
      · exact hi
      · rcases List.mem_cons.1 hx with rfl | hx
        · exact hj
        · exact (finOf h _ _ (hG x hx)).1)).length_le
    have h2 : ((l.length : ℚ) + 2) ≤ names.length := by
      have : l.length + 2 ≤ names.length := by simp only [List.length_cons] at this; omega
      exact_mod_cast this
    linarith
  -- the backward phase keeps it
  have delR : ∀ m, Relation.ReflTransGen (InsertRound so maxP score) (g0, (names.map (fun v => score v [])).sum) m →
      InsertOptimal maxP score m.1 → ∀ t, Relation.ReflTransGen (DeleteRound so score) m t → ∃ G, Right score names t G ∧ IMap R G := by
    intro m hm om t k
    induction k with
    | refl =>
      obtain ⟨G, h⟩ := insR m hm
      exact ⟨G, h, mid h om⟩
    | @tail b c hb hr ih =>
      obtain ⟨G, hR, hI⟩ := ih
      obtain ⟨i, j, T, c', g1, d, hB, e1, hd, hn, he, ec, es⟩ := hr
      have hv := hB.valid
      have hcon : Conn b.1 i j := hv.edge.elim (fun k => Dir.conn hR.comp.du.wf k) (fun k => Und.conn hR.comp.du.wf k)
      have hm' := Conn.mem hR.comp.du.wf hcon
      obtain ⟨x, e, f⟩ := deleteOp_eff hR.comp.du hm'.1 hm'.2 (hR.comp.du.ne hcon) hv.cand
      have e1' := e1
      rw [e] at e1'
      obtain rfl := Except.ok.inj e1'
      have hsn := hR.nodes
      have hch : ∀ t, DagScore score names (Dir d) t → t = b.2 + c' := by
        intro t ht
        have hs := hR.score
        rw [← hsn] at ht hs hse
        exact (hR.comp.delete_score hsc hse hv f hB.change).2 G (Dir d) hR.comp.extends he _ t hs ht
      have hnext : Right score names c (Dir d) := right_next hsc hso hR.nodes f.du hd hn he ec es
        (hall d _ ⟨b, i, j, T, c', x, hd, hn, he, Or.inr ⟨m, hm, om, hb, hB, e1⟩⟩ ec) hch
      refine ⟨_, hnext, ?_⟩
      obtain ⟨A, B, hA, hB', aij, _, hAB⟩ := hR.comp.delete hv f
      have hGA : InClass G A := extends_inClass hR.comp.extends hA
      have hBe : B = Minus A i j := by funext a b; exact propext (hAB a b)
      have hBd : InClass (Minus A i j) (Dir d) := hBe ▸ extends_inClass hB' he
      have finA := hGA.fin (finOf hR)
      have finB : ∀ a b, Minus A i j a b → a ∈ names ∧ b ∈ names := fun a b k => finA a b k.1
      have acB : Acyclic (Minus A i j) := hGA.acyclic.sub fun _ _ k => k.1
      have sB := dagScore_exists hN hsc (fun a b k => (finB a b k).1)
      have e2 := hse _ _ finB acB hBd _ _ sB hnext.score
      have hgain := (sep_iff_gain hN hsc hlc hGA.acyclic finA aij (scoreOf hR A hGA) sB).2 (by rw [e2, es]; linarith [hB.pos])
      have hIA : IMap R A := hI.trans (inClass_imap hN hR.comp.ac (finOf hR) hGA)
      exact (imap_minus hN acR finR hGA.acyclic finA hIA aij hgain).trans (inClass_imap hN acB finB hBd)
  rcases hf with ⟨g, s, gm, sm, N, k, l, e, rs, hn, _, ti, oi, td, od, _, _, _⟩ | ⟨_, t, hst⟩
  · have ti' := ti.trans
    have td' := td.trans
    obtain ⟨G, hR, hI⟩ := delR _ ti' oi _ td'
    have hc := inClass_of_deleteOptimal hN hsc acR finR hlc hR.comp.ac (finOf hR) hI (scoreOf hR)
      (fun D hD i j hij t ht => right_deleteOptimal hsc hse hR od hD hij ht)
    exact ⟨g, s, N, e, hn, isCpdag_class acR hc hR.comp.cp, scoreOf hR R (hc.symm' acR)⟩
  · exfalso
    rcases hst with ⟨h1, i, j, T, c, g1, hB, e1, hstuck⟩ | ⟨m, h1, om, h2, i, j, T, c, g1, hB, e1, hstuck⟩
    · obtain ⟨G, hR⟩ := insR _ h1
      obtain ⟨g1', d, e1', ed, _⟩ := c55_insert (K := ℚ) hR.comp.du.rs hR.comp.du.du hR.comp.ac hR.comp.fin hR.comp.cp hB.valid
      rw [e1] at e1'
      obtain rfl := Except.ok.inj e1'
      rw [hstuck] at ed
      cases ed
    · obtain ⟨G, hR, _⟩ := delR _ h1 om _ h2
      obtain ⟨g1', d, e1', ed, _⟩ := c55_delete (K := ℚ) hR.comp.du.rs hR.comp.du.du hR.comp.ac hR.comp.fin hR.comp.cp hB.valid
      rw [e1] at e1'
      obtain rfl := Except.ok.inj e1'
      rw [hstuck] at ed
      cases ed

/-- **C162, up to three variables**: no proviso. With three variables the default of `max_parents`, 3 / 2, is enough. -/
theorem c162_three {names : List α} (hN : names.Nodup) (h3 : names.length ≤ 3) {so : List α → List α} (hso : ∀ l, (so l).Perm l)
    {score : α → List α → K} (hsc : SetScore score) (hse : ScoreEquiv score names) {maxP : ℚ} (hmaxP : (names.length : ℚ) ≤ maxP + 2)
    (acR : Acyclic R) (finR : ∀ a b, R a b → a ∈ names ∧ b ∈ names) (hlc : LocallyConsistent score names R) :
    ∃ (g : Graph α) (s : K) (N : Nat), (∀ n, N ≤ n → fit n so maxP score names = .ok (g, s)) ∧
      g.nodes = names ∧ IsCpdag R g ∧ DagScore score names R s := by
  obtain ⟨g0, r0, n0, c0, hf⟩ := c162_fit_partial hN hso hsc hse hmaxP acR finR hlc
  exact hf (by
    intro d c hv e D hD u v k
    obtain ⟨st, i, j, T, ch, g1, hd, hdn, he, hrun⟩ := hv
    have hst : st.1.nodeList = names := by
      have hdu : DU g0 := ⟨r0, fun u v k => absurd k (c0 u v)⟩
      rcases hrun with ⟨h1, _⟩ | ⟨m, h1, _, h2, _⟩
      · obtain ⟨_, _, _, q, _⟩ := insertRounds hso hdu h1
        exact q.trans n0
      · obtain ⟨_, _, k2, q, _⟩ := insertRounds hso hdu h1
        obtain ⟨_, _, _, q', _⟩ := deleteRounds hso k2 h2
        exact q'.trans (q.trans n0)
    have hw := hd.toReachable.dg.wf
    have fin : ∀ a b, Dir d a b → a ∈ names ∧ b ∈ names := fun a b k => (show d.nodeList = names from hdn.trans hst) ▸ Dir.mem hw k
    exact c24_sound_partial hso hd.toReachable he.acyclic (noTwoTriangles_of_three h3 he.acyclic fin) e D hD.acyclic hD.adj
      hD.vstruct u v k)

end

section examples

/-- Local consistency on finitely many cases. -/
theorem locallyConsistent_of_check {names : List Nat} (hN : names.Nodup) {score : Nat → List Nat → ℚ} (hsc : SetScore score) {d : Graph Nat}
    (h : Reachable .digraph d) (hd : d.nodes = names)
    (hc : ∀ i ∈ names, ∀ j ∈ names, i ≠ j → ∀ l ∈ names.sublists, i ∉ l → j ∉ l →
      (d.isDSeparate i j (.reiterable l) = .ok true → score j (i :: l) < score j l) ∧
      (d.isDSeparate i j (.reiterable l) = .ok false → score j l < score j (i :: l))) : LocallyConsistent score names (Dir d) := by
  intro i hi j hj hne l hl hsub hil hjl
  have hm : ∀ x, x ∈ names.filter (fun x => x ∈ l) ↔ x ∈ l := by
    intro x
    simp only [List.mem_filter, decide_eq_true_eq]
    exact ⟨fun k => k.2, fun k => ⟨hsub x k, k⟩⟩
  have hi' : i ∉ names.filter (fun x => x ∈ l) := fun k => hil ((hm i).1 k)
  have hj' : j ∉ names.filter (fun x => x ∈ l) := fun k => hjl ((hm j).1 k)
  obtain ⟨b, hb, hiff⟩ := c09_dsep h i j (names.filter (fun x => x ∈ l)) (hd ▸ hi) (fun w hw => hd ▸ List.mem_of_mem_filter hw) hi' hj'
  have e : DSep (Dir d) i j (fun x => x ∈ l) ↔ DSep (Dir d) i j (fun x => x ∈ names.filter (fun x => x ∈ l)) :=
    dsep_congr (fun w => (hm w).symm) i j
  have e1 := hsc j l (names.filter (fun x => x ∈ l)) hl (hN.filter _) (fun x => (hm x).symm)
  have e2 := hsc j (i :: l) (i :: names.filter (fun x => x ∈ l)) (List.nodup_cons.2 ⟨hil, hl⟩) (List.nodup_cons.2 ⟨hi', hN.filter _⟩)
    (fun x => by rw [List.mem_cons, List.mem_cons, hm])
  obtain ⟨h1, h2⟩ := hc i hi j hj hne _ (List.mem_sublists.2 List.filter_sublist) hi' hj'
  rw [e, e1, e2, ← hiff]
  constructor
  · intro q
    exact h1 (by rw [hb, q])
  · intro q
    exact h2 (by rw [hb]; cases b <;> simp_all)

/-- The collider 0 -> 2 <- 1: `exFam` is locally consistent with it. -/
def exMeet : Graph Nat := built .digraph [0, 1, 2] [dE 0 2, dE 1 2]
theorem exMeet_reachable : Reachable .digraph exMeet := (built_reachable _ _ _ (by decide) (by decide)).reachable
theorem exMeet_acyclic : Acyclic (Dir exMeet) := acyclic_of_check exMeet_reachable (by decide +kernel)
theorem exMeet_fin : ∀ a b, Dir exMeet a b → a ∈ [0, 1, 2] ∧ b ∈ [0, 1, 2] := fun _ _ k => Dir.mem exMeet_reachable.dg.wf k
theorem exMeet_consistent : LocallyConsistent (famScore exFam) [0, 1, 2] (Dir exMeet) :=
  locallyConsistent_of_check (by decide) (famScore_set exFam) exMeet_reachable rfl (by decide +kernel)

example := c162_three (names := [0, 1, 2]) (by decide) (by decide) (so := id) (fun _ => List.Perm.refl _)
  (famScore_set exFam) (famScore_equiv (by decide) (by decide)) (maxP := 3 / 2) (by norm_num) exMeet_acyclic exMeet_fin exMeet_consistent
example := c162_fit_partial (names := [0, 1, 2]) (by decide) (so := id) (fun _ => List.Perm.refl _)
  (famScore_set exFam) (famScore_equiv (by decide) (by decide)) (maxP := 3 / 2) (by norm_num) exMeet_acyclic exMeet_fin exMeet_consistent

/-- The triangle on 0, 1, 2 has no d-separation, so every one of them holds in the collider; two edges are too many to be equivalent. -/
def exTri012 : Graph Nat := built .digraph [0, 1, 2] [dE 0 1, dE 0 2, dE 1 2]
theorem exTri012_reachable : Reachable .digraph exTri012 := (built_reachable _ _ _ (by decide) (by decide)).reachable
theorem exTri012_acyclic : Acyclic (Dir exTri012) := acyclic_of_check exTri012_reachable (by decide +kernel)
theorem exTri012_fin : ∀ a b, Dir exTri012 a b → a ∈ [0, 1, 2] ∧ b ∈ [0, 1, 2] := fun _ _ k => Dir.mem exTri012_reachable.dg.wf k

example := c162_inclusion (N := [0, 1, 2]) (by decide) exMeet_acyclic exMeet_fin exTri012_acyclic exTri012_fin
  (imap_of_sub exMeet_acyclic exTri012_acyclic (fun a b k => by
    obtain ⟨ha, hb⟩ := exMeet_fin a b k
    have : ∀ a ∈ [0, 1, 2], ∀ b ∈ [0, 1, 2], exMeet.getEdge a b = .ok (some (dE a b)) → exTri012.getEdge a b = .ok (some (dE a b)) := by decide +kernel
    exact this a ha b hb k))
example := c162_equivalent (N := [0, 1, 2]) (by decide) exMeet_acyclic exMeet_fin exTri012_acyclic exTri012_fin

end examples
end Cdmir
