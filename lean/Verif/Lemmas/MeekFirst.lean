import Verif.Lemmas.Meek

/-! The first pass of `rule1` sees every edge that is directed at the start. -/

namespace Cdmir
namespace Graph
open Spec
variable {α : Type} [DecidableEq α] {N : List α}

/-- A loop that keeps `P`, moves along `R`, and makes `C` true for each element, where `C` stays true along `R`. -/
theorem foldCover {γ β : Type} {P : γ → Prop} {R : γ → γ → Prop} {C : γ → β → Prop} {f : γ × Bool → β → Except Err (γ × Bool)}
    (rf : ∀ g, R g g) (tr : ∀ a b c, R a b → R b c → R a c) (hC : ∀ g g' x, P g → R g g' → C g x → C g' x) (l : List β)
    (h : ∀ g b x, x ∈ l → P g → ∃ g' b', f (g, b) x = .ok (g', b') ∧ P g' ∧ R g g' ∧ C g' x) :
    ∀ g b, P g → ∃ g' b', l.foldlM f (g, b) = .ok (g', b') ∧ P g' ∧ R g g' ∧ ∀ x ∈ l, C g' x := by
  induction l with
  | nil => intro g b hg; exact ⟨g, b, rfl, hg, rf g, by simp⟩
  | cons a l ih =>
    intro g b hg
    obtain ⟨g1, b1, e1, p1, r1, c1⟩ := h g b a (by simp) hg
    obtain ⟨g2, b2, e2, p2, r2, c2⟩ := ih (fun g b x hx => h g b x (by simp [hx])) g1 b1 p1
    refine ⟨g2, b2, ?_, p2, tr _ _ _ r1 r2, fun x hx => ?_⟩
    · rw [List.foldlM_cons, e1]
      exact e2
    · rcases List.mem_cons.1 hx with rfl | hx
      · exact hC _ _ _ p1 r2 c1
      · exact c2 x hx

/-- Orientation steps make no edge undirected. -/
theorem Oriented.not_und {g g' : Graph α} (h : Oriented g g') {x y : α} (hu : ¬ Und g x y) : ¬ Und g' x y := by
  unfold Und
  rw [h.keep x y (Or.inl hu)]
  exact hu

/-- After `rule1`, an undirected edge at the head of an edge `u -> v` of the start leads to a neighbour of `u`. -/
theorem rule1_first {p : Graph α} (hp : NG N p) : ∃ g1 c1, p.rule1 = .ok (g1, c1) ∧ NG N g1 ∧ Relation.ReflTransGen (Step Pat1) p g1 ∧
    ∀ u v w, Dir p u v → w ≠ u → Und g1 v w → Conn p u w := by
  classical
  have hN : N.Nodup := by rw [← hp.2]; exact hp.1.wf.nodup
  have hn : p.nodes = N := hp.2
  have stable : ∀ {g g' : Graph α}, NG N g → Relation.ReflTransGen (Step Pat1) g g' → Oriented g g' := fun h k => ReflSteps.oriented h.1 k
  have key := foldCover (P := fun g => NG N g ∧ Oriented p g) (R := Relation.ReflTransGen (Step Pat1))
    (C := fun g (q : α × α) => Dir p q.1 q.2 → ∀ w ∈ N, w ≠ q.1 → w ≠ q.2 → ¬ Conn p q.1 w → ¬ Und g q.2 w)
    (f := fun s (p : α × α) => do
      if ← s.1.isFullyDirected p.1 p.2 then s.1.nodes.foldlM (rule1Body p.1 p.2) s
      else pure s)
    (fun _ => .refl) (fun _ _ _ k1 k2 => k1.trans k2)
    (fun g g' q hg k hq hd w h1 h2 h3 h4 => (stable hg.1 k).not_und (hq hd w h1 h2 h3 h4)) (perms2 N)
  obtain ⟨g1, c1, e, p1, r, hc⟩ := key (by
      rintro g b ⟨u, v⟩ hx ⟨hg, ho⟩
      rw [mem_perms2 hN] at hx
      obtain ⟨hu, hv, huv⟩ := hx
      obtain ⟨hgp, rfl⟩ := hg
      simp only [fd_dec hgp.wf hu hv, bind, Except.bind]
      by_cases hd : Dir g u v
      · simp only [hd, decide_true, if_true]
        have key2 := foldCover (P := fun g' => (NG g.nodeList g' ∧ Oriented p g') ∧ Dir g' u v)
          (R := Relation.ReflTransGen (Step Pat1)) (C := fun g' w => w ≠ u → w ≠ v → ¬ Conn p u w → ¬ Und g' v w) (f := rule1Body u v)
          (fun _ => .refl) (fun _ _ _ k1 k2 => k1.trans k2)
          (fun a a' w ha k hq h2 h3 h4 => (stable ha.1.1 k).not_und (hq h2 h3 h4)) g.nodeList
        obtain ⟨g2, b2, e2, ⟨p2, _⟩, r2, c2⟩ := key2 (by
            rintro a b w hw ⟨⟨⟨hap, han⟩, hao⟩, had⟩
            unfold rule1Body
            have hu' : u ∈ a.nodeList := han ▸ hu
            have hv' : v ∈ a.nodeList := han ▸ hv
            have hw' : w ∈ a.nodeList := han ▸ hw
            by_cases h1 : w = u ∨ w = v
            · rw [if_pos h1]
              exact ⟨a, b, rfl, ⟨⟨⟨hap, han⟩, hao⟩, had⟩, .refl, fun k1 k2 => absurd h1 (by tauto)⟩
            · rw [if_neg h1]
              simp only [ic_dec hap.wf hu' hw', fu_dec hap.wf hv' hw', bind, Except.bind]
              by_cases h2 : Conn a u w
              · simp only [h2, decide_true, if_true]
                exact ⟨a, b, rfl, ⟨⟨⟨hap, han⟩, hao⟩, had⟩, .refl, fun _ _ k => absurd ((hao.conn u w).1 h2) k⟩
              · by_cases h3 : Und a v w
                · have hvw : v ≠ w := fun h => h1 (Or.inr h.symm)
                  obtain ⟨a', e, o⟩ := orient_ok hap hv' hw' hvw
                  simp only [h2, h3, decide_false, decide_true, if_true, e]
                  have hst : Step Pat1 a a' := ⟨v, w, hvw, h3, ⟨u, fun h => h1 (Or.inl h.symm), had, h2, h3⟩, o⟩
                  exact ⟨a', true, rfl, ⟨⟨⟨o.PG hap, o.nodes.trans han⟩, hao.trans (hst.oriented hap) hp.1⟩, o.dir_keep hap hvw h3 had⟩,
                    .single hst, fun _ _ _ => Dir.not_und (o.PG hap).wf (o.dir_self hap hvw)⟩
                · simp only [h2, h3, decide_false]
                  exact ⟨a, b, rfl, ⟨⟨⟨hap, han⟩, hao⟩, had⟩, .refl, fun _ _ _ => h3⟩) g b ⟨⟨⟨hgp, rfl⟩, ho⟩, hd⟩
        exact ⟨g2, b2, e2, p2, r2, fun _ w hw => c2 w hw⟩
      · simp only [hd, decide_false]
        exact ⟨g, b, rfl, ⟨⟨hgp, rfl⟩, ho⟩, .refl, fun hd' => absurd (ho.dir hp.1 hd') hd⟩) p false ⟨hp, Oriented.refl p⟩
  refine ⟨g1, c1, ?_, p1.1, r, fun u v w hd hwu hu => ?_⟩
  · unfold rule1
    rw [hn]
    exact e
  · by_contra hcn
    have hw := p1.1.1.wf
    have hm := Conn.mem hw (hu.conn hw)
    rw [p1.1.2] at hm
    have hm2 := Conn.mem hp.1.wf (Dir.conn hp.1.wf hd)
    rw [hp.2] at hm2
    refine hc (u, v) ((mem_perms2 hN _ _).2 ⟨hm2.1, hm2.2, Dir.ne hp.1.wf hd⟩) hd w hm.2 hwu ?_ hcn hu
    rintro rfl
    exact hcn (Dir.conn hp.1.wf hd)

/-- The run of all four rules goes through the graph after the first pass of `rule1`. -/
theorem orient_first {p g' : Graph α} (hp : NG N p) (h : p.orientByMeekRules = .ok g') : ∃ g1, Relation.ReflTransGen (Step Pat1) p g1 ∧
    Relation.ReflTransGen (Step PatAny) g1 g' ∧ ∀ u v w, Dir p u v → w ≠ u → Und g1 v w → Conn p u w := by
  obtain ⟨g1, c1, e1, p1, r1, h1⟩ := rule1_first hp
  obtain ⟨g2, c2, e2, p2, d2⟩ := rule2_spec p1
  obtain ⟨g3, c3, e3, p3, d3⟩ := rule3_spec p2
  obtain ⟨g4, c4, e4, p4, d4⟩ := rule4_spec p3
  have m2 : ∀ {g g' : Graph α}, Steps Pat2 g g' → Relation.ReflTransGen (Step PatAny) g g' := fun h =>
    (h.mono (fun _ _ _ h => Or.inr (Or.inl h))).to_reflTransGen
  have m3 : ∀ {g g' : Graph α}, Steps Pat3 g g' → Relation.ReflTransGen (Step PatAny) g g' := fun h =>
    (h.mono (fun _ _ _ h => Or.inr (Or.inr (Or.inl h)))).to_reflTransGen
  have m4 : ∀ {g g' : Graph α}, Steps Pat4 g g' → Relation.ReflTransGen (Step PatAny) g g' := fun h =>
    (h.mono (fun _ _ _ h => Or.inr (Or.inr (Or.inr h)))).to_reflTransGen
  have s2 : Relation.ReflTransGen (Step PatAny) g1 g2 := d2.elim (fun k => k.2.1 ▸ .refl) (fun k => m2 k.2)
  have s3 : Relation.ReflTransGen (Step PatAny) g2 g3 := d3.elim (fun k => k.2.1 ▸ .refl) (fun k => m3 k.2)
  have s4 : Relation.ReflTransGen (Step PatAny) g3 g4 := d4.elim (fun k => k.2.1 ▸ .refl) (fun k => m4 k.2)
  have epass : p.meekPass = .ok (g4, c1 || c2 || c3 || c4) := by
    unfold meekPass
    simp only [e1, e2, e3, e4, bind, Except.bind, pure, Except.pure]
  refine ⟨g1, r1, (s2.trans (s3.trans s4)).trans ?_, h1⟩
  unfold orientByMeekRules meekLoop at h
  rw [epass] at h
  simp only [bind, Except.bind] at h
  split at h
  · rename_i hflag
    obtain ⟨g6, e6, _, r6, _⟩ := meekLoop_spec (N := N) ((pairs p.nodes).length) g4 p4 (by
      -- the flag is set, so an edge has been directed
      have hle := undCount_le p
      obtain ⟨gp, cp, ep, _, dp⟩ := meekPass_spec hp
      rw [epass] at ep
      simp only [Except.ok.injEq, Prod.mk.injEq] at ep
      obtain ⟨rfl, rfl⟩ := ep
      rcases dp with ⟨q, _⟩ | ⟨_, q⟩
      · rw [hflag] at q
        cases q
      · have := Steps.undCount_lt hp.1 q
        have : (pairs p.nodes).length = (pairs p.nodeList).length := rfl
        omega)
    rw [e6] at h
    cases h
    exact r6
  · cases h
    exact .refl

end Graph
end Cdmir
