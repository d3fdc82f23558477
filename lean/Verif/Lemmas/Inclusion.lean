import Verif.Lemmas.Covered

/-!
Inclusion of DAG models (the conjecture of Meek, proved by Chickering in "Optimal structure identification with greedy search"):
if `G` is an independence map of `R` and the two are not equivalent, then from some DAG of the class of `G` one edge can be
removed such that the result is still an independence map of `R`.
-/

set_option linter.unusedSectionVars false

namespace Cdmir
namespace Spec
variable {α : Type} {R G D : α → α → Prop} {N : List α} {C P : α → Prop}

/-- The graph with one more edge. -/
def Plus (R : α → α → Prop) (x w a b : α) : Prop := R a b ∨ (a = x ∧ b = w)

/-- The graph with one edge less. -/
def Minus (R : α → α → Prop) (x w a b : α) : Prop := R a b ∧ ¬ (a = x ∧ b = w)

theorem plus_fin (fin : ∀ a b, R a b → a ∈ N ∧ b ∈ N) {x w : α} (hx : x ∈ N) (hw : w ∈ N) : ∀ a b, Plus R x w a b → a ∈ N ∧ b ∈ N := by
  rintro a b (k | ⟨rfl, rfl⟩)
  · exact fin a b k
  · exact ⟨hx, hw⟩

theorem plus_acyclic (ac : Acyclic R) (fin : ∀ a b, R a b → a ∈ N ∧ b ∈ N) {x w : α} (hx : x ∈ N) (h : ¬ Desc R w x) :
    Acyclic (Plus R x w) := by
  classical
  obtain ⟨r, hr⟩ := exists_rank ac fin
  obtain ⟨M, hM⟩ := exists_bound r N
  refine acyclic_of_rank (r := fun v => if Desc R w v then r v + M else r v) ?_
  rintro u v (k | ⟨rfl, rfl⟩)
  · have := hr u v k
    by_cases hu : Desc R w u
    · have hv : Desc R w v := hu.tail k
      simp only [hu, hv, if_true]
      omega
    · simp only [hu, if_false]
      split <;> omega
  · have hv : Desc R v v := .refl
    simp only [h, hv, if_true, if_false]
    have := hM u hx
    omega

/-- A sink outside the conditioning set and the ends plays no part. -/
theorem con_drop_sink {R' : α → α → Prop} {n : α} (hs : ∀ v, ¬ R' n v) (hR : ∀ u v, v ≠ n → R' u v → R u v) (hn : ¬ C n) {a b : α}
    (ha : a ≠ n) (hb : b ≠ n) (h : Con R' C a b) : Con R C a b := by
  have anc : ∀ {u w}, Desc R' u w → w ≠ n → Desc R u w := by
    intro u w k
    induction k with
    | refl => intro _; exact .refl
    | tail _ e ih => exact fun q => (ih (fun q' => hs _ (q' ▸ e))).tail (hR _ _ q e)
  have anc' : ∀ {y}, AncZ R' C y → AncZ R C y := by
    rintro y ⟨w, hw, hd⟩
    exact ⟨w, hw, anc hd (fun q => hn (q ▸ hw))⟩
  have key : ∀ s, Reach R' C a s → s = (n, false) ∨ (s.1 ≠ n ∧ Reach R C a s) := by
    intro s k
    induction k with
    | refl => exact Or.inr ⟨ha, .refl⟩
    | @tail s t _ m ih =>
      rcases ih with rfl | ⟨hy, ih⟩
      · cases m with
        | down_ch _ e => exact absurd e (hs _)
        | @down_pa _ p k e =>
          obtain ⟨w, hw, hd⟩ := k
          rcases hd.cases_head with rfl | ⟨c, e', _⟩
          · exact absurd hw hn
          · exact absurd e' (hs _)
      · cases m with
        | @up_pa y p hz e => exact Or.inr ⟨fun q => hs y (show R' n y from q ▸ e), ih.tail (.up_pa hz (hR _ _ hy e))⟩
        | @up_ch y c hz e =>
          by_cases hc : c = n
          · exact Or.inl (by rw [hc])
          · exact Or.inr ⟨hc, ih.tail (.up_ch hz (hR _ _ hc e))⟩
        | @down_ch y c hz e =>
          by_cases hc : c = n
          · exact Or.inl (by rw [hc])
          · exact Or.inr ⟨hc, ih.tail (.down_ch hz (hR _ _ hc e))⟩
        | @down_pa y p hz e => exact Or.inr ⟨fun q => hs y (show R' n y from q ▸ e), ih.tail (.down_pa (anc' hz) (hR _ _ hy e))⟩
  obtain ⟨d, h⟩ := h
  rcases key _ h with q | q
  · exact absurd (congrArg Prod.fst q) hb
  · exact ⟨d, q.2⟩

/-- Adjacent in `R`, adjacent in an independence map. -/
theorem IMap.adj (h : IMap R G) (acG : Acyclic G) {a b : α} (hne : a ≠ b) (k : Adj R a b) : Adj G a b := by
  by_contra hn
  by_cases hd : Desc G b a
  · have hd' : ¬ Desc G a b := by
      intro q
      rcases q.cases_head with e | ⟨c, e, q⟩
      · exact hne e
      · exact acG a ((Relation.TransGen.head' e q).trans_left hd)
    exact not_dsep_of_adj hne.symm k.symm (h b a (fun w => G w a) (fun q => hn (Or.inr q)) (acG.irrefl a)
      (dsep_parents acG hne.symm (fun q => hn q.symm) hd'))
  · exact not_dsep_of_adj hne k (h a b (fun w => G w b) (fun q => hn (Or.inl q)) (acG.irrefl b) (dsep_parents acG hne hn hd))

/-- With a sink of `G` as the latest node. -/
theorem imap_of_sink (hnd : N.Nodup) (acR : Acyclic R) (finR : ∀ a b, R a b → a ∈ N ∧ b ∈ N) (acG : Acyclic G)
    (finG : ∀ a b, G a b → a ∈ N ∧ b ∈ N) {y : α} (hs : ∀ v, ¬ G y v)
    (h1 : ∀ a b C, a ≠ y → b ≠ y → ¬ C y → ¬ C a → ¬ C b → DSep G a b C → DSep R a b C)
    (h2 : ∀ v, v ≠ y → ¬ G v y → DSep R v y (fun w => G w y)) : IMap R G := by
  classical
  obtain ⟨r, hr⟩ := exists_rank acG finG
  obtain ⟨M, hM⟩ := exists_bound r N
  let r' : α → Nat := fun x => if x = y then M else r x
  have ry : r' y = M := if_pos rfl
  have rx : ∀ {x}, x ≠ y → r' x = r x := fun q => if_neg q
  refine imap_of_rank (r := r') acR finR finG hnd ?_ ?_
  · intro u v k
    have hu : u ≠ y := fun q => hs v (q ▸ k)
    rw [rx hu]
    by_cases hv : v = y
    · rw [hv, ry]; exact hM u (finG _ _ k).1
    · rw [rx hv]; exact hr _ _ k
  · intro v hv n hn hvn hle hG
    by_cases hny : n = y
    · subst hny
      exact h2 v hvn hG
    · by_cases hvy : v = y
      · rw [hvy, ry, rx hny] at hle
        have := hM n hn
        omega
      · rw [rx hvy, rx hny] at hle
        exact h1 v n _ hvy hny (hs n) hG (acG.irrefl n) ((IMap.refl G).ranked hr hvn hle hG)

/-- A sink is separated from the others by a set that contains its parents. -/
theorem dsep_last (ac : Acyclic R) {y : α} (hs : ∀ v, ¬ R y v) (hy : ¬ P y) (hP : ∀ p, R p y → P p) {v : α} (hv : v ≠ y) (hvP : ¬ P v) :
    DSep R v y P := by
  apply DSep.symm
  by_contra hn
  rw [← con_iff ac hy] at hn
  obtain ⟨d, k⟩ := hn
  rcases k.cases_head with q | ⟨t, m, k⟩
  · exact hv (congrArg Prod.fst q).symm
  · cases m with
    | up_ch _ e => exact hs _ e
    | @up_pa _ p _ e =>
      rcases k.cases_head with q | ⟨t, m, _⟩
      · obtain rfl : p = v := congrArg Prod.fst q
        exact hvP (hP p e)
      · cases m with
        | up_ch hz _ => exact hz (hP p e)
        | up_pa hz _ => exact hz (hP p e)

theorem anc_plus {x w : α} {y : α} (h : AncZ (Plus R x w) C y) : AncZ R C y ∨ Desc R y x := by
  obtain ⟨u, hu, hd⟩ := h
  induction hd using Relation.ReflTransGen.head_induction_on with
  | refl => exact Or.inl ⟨u, hu, .refl⟩
  | head e _ ih =>
    rcases e with e | ⟨rfl, rfl⟩
    · rcases ih with ih | ih
      · exact Or.inl (ih.of_edge e)
      · exact Or.inr (.head e ih)
    · exact Or.inr .refl

/-- An edge out of a node of the conditioning set opens no trail. -/
theorem con_plus_in {x w : α} (hx : P x) {v y : α} (hy : ¬ P y) (h : Con (Plus R x w) P v y) : Con R P v y := by
  have anc : ∀ {u}, AncZ (Plus R x w) P u → AncZ R P u := fun k => (anc_plus k).elim id (fun q => ⟨x, hx, q⟩)
  have key : ∀ s, Reach (Plus R x w) P v s → s = (x, true) ∨ Reach R P v s := by
    intro s k
    induction k with
    | refl => exact Or.inr .refl
    | @tail s t _ m ih =>
      rcases ih with rfl | ih
      · cases m with
        | up_pa hz _ => exact absurd hx hz
        | up_ch hz _ => exact absurd hx hz
      · cases m with
        | @up_pa u p hz e =>
          rcases e with e | ⟨rfl, rfl⟩
          · exact Or.inr (ih.tail (.up_pa hz e))
          · exact Or.inl rfl
        | @up_ch u c hz e =>
          rcases e with e | ⟨rfl, rfl⟩
          · exact Or.inr (ih.tail (.up_ch hz e))
          · exact absurd hx hz
        | @down_ch u c hz e =>
          rcases e with e | ⟨rfl, rfl⟩
          · exact Or.inr (ih.tail (.down_ch hz e))
          · exact absurd hx hz
        | @down_pa u p hz e =>
          rcases e with e | ⟨rfl, rfl⟩
          · exact Or.inr (ih.tail (.down_pa (anc hz) e))
          · exact Or.inl rfl
  obtain ⟨d, h⟩ := h
  rcases key _ h with q | q
  · obtain rfl : y = x := congrArg Prod.fst q
    exact absurd hx hy
  · exact ⟨d, q⟩

/-- `x -> y -> z` instead of `x -> z`. -/
theorem con_plus_chain {x y z : α} (hxy : R x y) (hyz : R y z) (hy : ¬ C y) {a b : α} (h : Con (Plus R x z) C a b) : Con R C a b := by
  have anc : ∀ {u}, AncZ (Plus R x z) C u → AncZ R C u := by
    rintro u ⟨w, hw, hd⟩
    induction hd using Relation.ReflTransGen.head_induction_on with
    | refl => exact AncZ.self hw
    | head e _ ih =>
      rcases e with e | ⟨rfl, rfl⟩
      · exact ih.of_edge e
      · exact (ih.of_edge hyz).of_edge hxy
  obtain ⟨d, h⟩ := h
  refine ⟨d, ?_⟩
  generalize (b, d) = s at h
  induction h with
  | refl => exact .refl
  | @tail s t _ m ih =>
    cases m with
    | @up_pa u p hz e =>
      rcases e with e | ⟨rfl, rfl⟩
      · exact ih.tail (.up_pa hz e)
      · exact (ih.tail (.up_pa hz hyz)).tail (.up_pa hy hxy)
    | @up_ch u c hz e =>
      rcases e with e | ⟨rfl, rfl⟩
      · exact ih.tail (.up_ch hz e)
      · exact (ih.tail (.up_ch hz hxy)).tail (.down_ch hy hyz)
    | @down_ch u c hz e =>
      rcases e with e | ⟨rfl, rfl⟩
      · exact ih.tail (.down_ch hz e)
      · exact (ih.tail (.down_ch hz hxy)).tail (.down_ch hy hyz)
    | @down_pa u p hz e =>
      rcases e with e | ⟨rfl, rfl⟩
      · exact ih.tail (.down_pa (anc hz) e)
      · exact (ih.tail (.down_pa (anc hz) hyz)).tail (.up_pa hy hxy)

/-- `x -> z <- y` instead of `x -> y`, with `z` opened by the conditioning set. -/
theorem con_plus_collider {x y z : α} (hxz : R x z) (hyz : R y z) (hy : ¬ C y) (hz : AncZ R C z) {a b : α} (h : Con (Plus R x y) C a b) :
    Con R C a b := by
  have anc : ∀ {u}, AncZ (Plus R x y) C u → AncZ R C u :=
    fun k => (anc_plus k).elim id (fun q => (hz.of_edge hxz).of_desc q)
  have key : ∀ s, Reach (Plus R x y) C a s → Reach R C a s ∨ (s.1 = y ∧ Reach R C a (y, true)) := by
    intro s k
    induction k with
    | refl => exact Or.inl .refl
    | @tail s t _ m ih =>
      rcases ih with ih | ⟨rfl, ih⟩
      · cases m with
        | @up_pa u p hu e =>
          rcases e with e | ⟨rfl, rfl⟩
          · exact Or.inl (ih.tail (.up_pa hu e))
          · exact Or.inl ((ih.tail (.up_ch hu hyz)).tail (.down_pa hz hxz))
        | @up_ch u c hu e =>
          rcases e with e | ⟨rfl, rfl⟩
          · exact Or.inl (ih.tail (.up_ch hu e))
          · exact Or.inr ⟨rfl, (ih.tail (.up_ch hu hxz)).tail (.down_pa hz hyz)⟩
        | @down_ch u c hu e =>
          rcases e with e | ⟨rfl, rfl⟩
          · exact Or.inl (ih.tail (.down_ch hu e))
          · exact Or.inr ⟨rfl, (ih.tail (.down_ch hu hxz)).tail (.down_pa hz hyz)⟩
        | @down_pa u p hu e =>
          rcases e with e | ⟨rfl, rfl⟩
          · exact Or.inl (ih.tail (.down_pa (anc hu) e))
          · exact Or.inl ((ih.tail (.down_ch hy hyz)).tail (.down_pa hz hxz))
      · have up : ∀ p, Plus R x s.1 p s.1 → Reach R C a (p, true) := by
          rintro p (e | ⟨rfl, -⟩)
          · exact ih.tail (.up_pa hy e)
          · exact (ih.tail (.up_ch hy hyz)).tail (.down_pa hz hxz)
        have down : ∀ c, Plus R x s.1 s.1 c → Reach R C a (c, false) ∨ (c = s.1 ∧ Reach R C a (s.1, true)) := by
          rintro c (e | ⟨_, rfl⟩)
          · exact Or.inl (ih.tail (.up_ch hy e))
          · exact Or.inr ⟨rfl, ih⟩
        cases m with
        | @up_pa u p hu e => exact Or.inl (up p e)
        | @up_ch u c hu e => exact down c e
        | @down_ch u c hu e => exact down c e
        | @down_pa u p hu e => exact Or.inl (up p e)
  obtain ⟨d, h⟩ := h
  rcases key _ h with q | ⟨rfl, q⟩
  · exact ⟨d, q⟩
  · exact ⟨true, q⟩

/-- If not opened, a trail that needs the new edge `x -> y` leads to every descendant of the common child `z`. -/
theorem con_plus_down {x y z e : α} (hxz : R x z) (hyz : R y z) (hy : ¬ C y) (hz : ¬ AncZ R C z) (he : Desc R z e) {a b : α}
    (h : Con (Plus R x y) C a b) : Con R C a b ∨ Con R C a e := by
  have key : ∀ s, Reach (Plus R x y) C a s → Reach R C a s ∨ Con R C a e := by
    intro s k
    induction k with
    | refl => exact Or.inl .refl
    | @tail s t _ m ih =>
      rcases ih with ih | ih
      · have fromz : Reach R C a (z, false) → Con R C a e := fun q => reach_down q he hz
        cases m with
        | @up_pa u p hu e =>
          rcases e with e | ⟨rfl, rfl⟩
          · exact Or.inl (ih.tail (.up_pa hu e))
          · exact Or.inr (fromz (ih.tail (.up_ch hu hyz)))
        | @up_ch u c hu e =>
          rcases e with e | ⟨rfl, rfl⟩
          · exact Or.inl (ih.tail (.up_ch hu e))
          · exact Or.inr (fromz (ih.tail (.up_ch hu hxz)))
        | @down_ch u c hu e =>
          rcases e with e | ⟨rfl, rfl⟩
          · exact Or.inl (ih.tail (.down_ch hu e))
          · exact Or.inr (fromz (ih.tail (.down_ch hu hxz)))
        | @down_pa u p hu e' =>
          rcases e' with e' | ⟨rfl, rfl⟩
          · by_cases hA : AncZ R C u
            · exact Or.inl (ih.tail (.down_pa hA e'))
            · have := (anc_plus hu).resolve_left hA
              exact Or.inr (reach_down ih ((this.tail hxz).trans he) hA)
          · exact Or.inr (fromz (ih.tail (.down_ch hy hyz)))
      · exact Or.inr ih
  obtain ⟨d, h⟩ := h
  rcases key _ h with q | q
  · exact Or.inl ⟨d, q⟩
  · exact Or.inr q

theorem desc_plus {x y : α} (hxy : ¬ Desc R y x) {w : α} (h : Desc (Plus R x y) y w) : Desc R y w := by
  induction h with
  | refl => exact .refl
  | tail _ e ih =>
    rcases e with e | ⟨rfl, rfl⟩
    · exact ih.tail e
    · exact absurd ih hxy

/-- A trail that needs the new edge `x -> y`: an end or a member of the conditioning set descends from `y`. -/
theorem con_plus_desc {x y : α} (hxy : ¬ Desc R y x) {a b : α} (h : Con (Plus R x y) C a b)
    (hn : ∀ w, C w ∨ w = a ∨ w = b → ¬ Desc R y w) : Con R C a b := by
  have anc : ∀ {u}, AncZ (Plus R x y) C u → AncZ R C u := by
    rintro u ⟨w, hw, hd⟩
    induction hd using Relation.ReflTransGen.head_induction_on with
    | refl => exact AncZ.self hw
    | head e hd ih =>
      rcases e with e | ⟨rfl, rfl⟩
      · exact ih.of_edge e
      · exact absurd (desc_plus hxy hd) (hn w (Or.inl hw))
  have ancy : ¬ AncZ (Plus R x y) C y := by
    rintro ⟨w, hw, hd⟩
    exact hn w (Or.inl hw) (desc_plus hxy hd)
  have key : ∀ s, Reach (Plus R x y) C a s →
      (Reach R C a s ∧ (s.2 = true → AncZ (Plus R x y) C s.1 ∨ Desc (Plus R x y) s.1 a)) ∨ (s.2 = false ∧ Desc R y s.1) := by
    intro s k
    induction k with
    | refl => exact Or.inl ⟨.refl, fun _ => Or.inr .refl⟩
    | @tail s t _ m ih =>
      rcases ih with ⟨ih, hup⟩ | ⟨hs, hd⟩
      · cases m with
        | @up_pa u p hu e =>
          have h2 : AncZ (Plus R x y) C p ∨ Desc (Plus R x y) p a :=
            (hup rfl).imp (fun q => q.of_edge e) (fun q => .head e q)
          rcases e with e | ⟨rfl, rfl⟩
          · exact Or.inl ⟨ih.tail (.up_pa hu e), fun _ => h2⟩
          · rcases hup rfl with q | q
            · exact absurd q ancy
            · exact absurd (desc_plus hxy q) (hn a (Or.inr (Or.inl rfl)))
        | @up_ch u c hu e =>
          rcases e with e | ⟨rfl, rfl⟩
          · exact Or.inl ⟨ih.tail (.up_ch hu e), fun q => by cases q⟩
          · exact Or.inr ⟨rfl, .refl⟩
        | @down_ch u c hu e =>
          rcases e with e | ⟨rfl, rfl⟩
          · exact Or.inl ⟨ih.tail (.down_ch hu e), fun q => by cases q⟩
          · exact Or.inr ⟨rfl, .refl⟩
        | @down_pa u p hu e =>
          have h2 : AncZ (Plus R x y) C p := hu.of_edge e
          rcases e with e | ⟨rfl, rfl⟩
          · exact Or.inl ⟨ih.tail (.down_pa (anc hu) e), fun _ => Or.inl h2⟩
          · exact absurd hu ancy
      · cases m with
        | up_pa _ _ => cases hs
        | up_ch _ _ => cases hs
        | @down_ch u c hu e =>
          rcases e with e | ⟨rfl, rfl⟩
          · exact Or.inr ⟨rfl, hd.tail e⟩
          · exact absurd hd hxy
        | @down_pa u p hu e =>
          obtain ⟨w, hw, q⟩ := anc hu
          exact absurd (hd.trans q) (hn w (Or.inl hw))
  obtain ⟨d, h⟩ := h
  rcases key _ h with q | q
  · exact ⟨d, q.1⟩
  · exact absurd q.2 (hn b (Or.inr (Or.inr rfl)))

/-- Trails from both ends to a node above the ends or the conditioning set make a trail. -/
theorem con_through (ac : Acyclic G) {a b e : α} (ha : ¬ C a) (hb : ¬ C b) (he : ¬ C e) (h1 : Con G C a e) (h2 : Con G C b e) {w : α}
    (hw : C w ∨ w = a ∨ w = b) (hd : Desc G e w) : Con G C a b := by
  by_cases hA : AncZ G C e
  · obtain ⟨d, h1⟩ := h1
    obtain ⟨d', h2⟩ := h2.symm ac hb he
    rcases h2.cases_head with q | ⟨t, m, h2⟩
    · obtain rfl : e = b := congrArg Prod.fst q
      exact ⟨d, h1⟩
    · refine ⟨d', Relation.ReflTransGen.trans (h1.tail (c := t) ?_) h2⟩
      cases m with
      | up_pa hz k =>
        cases d with
        | true => exact .up_pa hz k
        | false => exact .down_pa hA k
      | up_ch hz k =>
        cases d with
        | true => exact .up_ch hz k
        | false => exact .down_ch hz k
  · rcases hw with hw | rfl | rfl
    · exact absurd ⟨w, hw, hd⟩ hA
    · obtain ⟨d, h2⟩ := h2
      exact Con.symm ac hb ha (reach_down h2 hd hA)
    · obtain ⟨d, h1⟩ := h1
      exact reach_down h1 hd hA

theorem IMap.con (h : IMap R G) (acR : Acyclic R) (acG : Acyclic G) {a b : α} (ha : ¬ C a) (hb : ¬ C b) (k : Con R C a b) : Con G C a b := by
  rw [con_iff acG ha]
  rw [con_iff acR ha] at k
  exact fun q => k (h a b C ha hb q)

/-- A sink `y` of `G` with descendants in `R`: one of them is above all others in `G`. -/
theorem exists_top (h : IMap R G) (acR : Acyclic R) (acG : Acyclic G) (finG : ∀ a b, G a b → a ∈ N ∧ b ∈ N) (y : α) :
    ∃ e, Desc R y e ∧ ∀ s, Desc R y s → Desc G e s := by
  classical
  have acT : Acyclic (Relation.TransGen G) := fun u k => acG u (by rwa [Relation.transGen_eq_self] at k)
  have finT : ∀ a b, Relation.TransGen G a b → a ∈ N := by
    intro a b k
    obtain ⟨c, e, _⟩ := Relation.TransGen.head'_iff.1 k
    exact (finG _ _ e).1
  obtain ⟨e, he, hmin⟩ := Graph.exists_minimal (R := Relation.TransGen G) N finT acT (fun s => Desc R y s) ⟨y, .refl⟩
  refine ⟨e, he, ?_⟩
  by_contra hn
  push Not at hn
  obtain ⟨f, ⟨hf, hef⟩, hfmin⟩ := Graph.exists_minimal (R := Relation.TransGen G) N finT acT (fun s => Desc R y s ∧ ¬ Desc G e s) hn
  have hfe : f ≠ e := fun q => hef (q ▸ .refl)
  have hna : ¬ Adj G f e := by
    rintro (k | k)
    · exact hmin f (.single k) hf
    · exact hef (.single k)
  have hsep := h f e (fun w => G w e) (fun q => hna (Or.inl q)) (acG.irrefl e) (dsep_parents acG hfe hna hef)
  have hnP : ¬ AncZ R (fun w => G w e) y := by
    rintro ⟨w, hw, hd⟩
    exact hmin w (.single hw) hd
  exact (con_iff (Z := fun w => G w e) acR (fun q => hna (Or.inl q))).1 (reach_down (reach_up hf hnP) he hnP) hsep

/-- The case of an edge `x -> z` for `x -> y -> z`, `y` a sink of `G`. -/
theorem step_chain (hnd : N.Nodup) (h : IMap R G) (acR : Acyclic R) (finR : ∀ a b, R a b → a ∈ N ∧ b ∈ N) (acG : Acyclic G)
    (finG : ∀ a b, G a b → a ∈ N ∧ b ∈ N) {x y z : α} (hs : ∀ v, ¬ G y v) (hxy : R x y) (hyz : R y z) :
    Acyclic (Plus R x z) ∧ IMap (Plus R x z) G := by
  have hxz : ¬ Desc R z x := fun q => acR z (Relation.TransGen.tail' (q.tail hxy) hyz)
  have ac' := plus_acyclic acR finR (finR _ _ hxy).1 hxz
  have hxG : G x y := (h.adj acG (fun q => acR.irrefl x (by rw [← q] at hxy; exact hxy)) (Or.inl hxy)).resolve_right (hs x)
  refine ⟨ac', imap_of_sink hnd ac' (plus_fin finR (finR _ _ hxy).1 (finR _ _ hyz).2) acG finG hs ?_ ?_⟩
  · intro a b C _ _ hy ha hb k
    by_contra hn
    rw [← con_iff ac' ha] at hn
    exact (con_iff acR ha).1 (con_plus_chain hxy hyz hy hn) (h a b C ha hb k)
  · intro v hv hG
    by_contra hn
    rw [← con_iff (Z := fun w => G w y) ac' hG] at hn
    refine (con_iff (Z := fun w => G w y) acR hG).1 (con_plus_in (P := fun w => G w y) hxG (acG.irrefl y) hn) (h v y _ hG (acG.irrefl y) ?_)
    refine dsep_parents acG hv (fun q => q.elim hG (hs v)) (fun q => ?_)
    rcases q.cases_head with e | ⟨c, e, _⟩
    · exact hv e.symm
    · exact hs c e

/-- The case of an edge `x -> y` for `x -> z <- y`, `y` a sink of `G`. -/
theorem step_collider (hnd : N.Nodup) (h : IMap R G) (acR : Acyclic R) (finR : ∀ a b, R a b → a ∈ N ∧ b ∈ N) (acG : Acyclic G)
    (finG : ∀ a b, G a b → a ∈ N ∧ b ∈ N) {x y z e : α} (hs : ∀ v, ¬ G y v) (hxz : R x z) (hyz : R y z) (hxy : ¬ Desc R y x)
    (he : Desc R z e) (htop : ∀ s, Desc R y s → Desc G e s) : Acyclic (Plus R x y) ∧ IMap (Plus R x y) G := by
  have hne : x ≠ y := fun q => hxy (q ▸ .refl)
  have hzx : x ≠ z := fun q => acR.irrefl x (by rw [← q] at hxz; exact hxz)
  have hzy : y ≠ z := fun q => acR.irrefl y (by rw [← q] at hyz; exact hyz)
  have ac' := plus_acyclic acR finR (finR _ _ hxz).1 hxy
  have gzy : G z y := (h.adj acG hzy (Or.inl hyz)).resolve_left (hs z)
  -- `x` is a parent of `y` in `G`
  have hxG : G x y := by
    by_contra hG
    have sep := h x y (fun w => G w y) hG (acG.irrefl y) (dsep_parents acG hne (fun q => q.elim hG (hs x)) (fun q => by
      rcases q.cases_head with e | ⟨c, e, _⟩
      · exact hne e.symm
      · exact hs c e))
    refine (con_iff (Z := fun w => G w y) acR hG).1 ⟨true, ?_⟩ sep
    have m1 : Move R (fun w => G w y) (x, true) (z, false) := Move.up_ch (Z := fun w => G w y) hG hxz
    have m2 : Move R (fun w => G w y) (z, false) (y, true) := Move.down_pa (Z := fun w => G w y) ⟨z, gzy, .refl⟩ hyz
    exact (Relation.ReflTransGen.single m1).tail m2
  refine ⟨ac', imap_of_sink hnd ac' (plus_fin finR (finR _ _ hxz).1 (finR _ _ hyz).1) acG finG hs ?_ ?_⟩
  · intro a b C hay hby hy ha hb k
    by_contra hn
    rw [← con_iff ac' ha] at hn
    have hR : ¬ Con R C a b := fun q => (con_iff acR ha).1 q (h a b C ha hb k)
    by_cases hz : AncZ R C z
    · exact hR (con_plus_collider hxz hyz hy hz hn)
    · have c1 := (con_plus_down hxz hyz hy hz he hn).resolve_left hR
      have c2 := (con_plus_down hxz hyz hy hz he (hn.symm ac' ha hb)).resolve_left (fun q => hR (q.symm acR hb ha))
      have heC : ¬ C e := fun q => hz ⟨e, q, he⟩
      by_cases hw : ∃ w, (C w ∨ w = a ∨ w = b) ∧ Desc R y w
      · obtain ⟨w, hw, hd⟩ := hw
        exact (con_iff acG ha).1 (con_through acG ha hb heC (h.con acR acG ha heC c1) (h.con acR acG hb heC c2) hw (htop w hd)) k
      · exact hR (con_plus_desc hxy hn (fun w h1 h2 => hw ⟨w, h1, h2⟩))
  · intro v hv hG
    by_contra hn
    rw [← con_iff (Z := fun w => G w y) ac' hG] at hn
    refine (con_iff (Z := fun w => G w y) acR hG).1 (con_plus_in (P := fun w => G w y) hxG (acG.irrefl y) hn) (h v y _ hG (acG.irrefl y) ?_)
    refine dsep_parents acG hv (fun q => q.elim hG (hs v)) (fun q => ?_)
    rcases q.cases_head with e | ⟨c, e, _⟩
    · exact hv e.symm
    · exact hs c e

/-- The case of a sink of both. -/
theorem step_sink (hnd : N.Nodup) (h : IMap R G) (acR : Acyclic R) (finR : ∀ a b, R a b → a ∈ N ∧ b ∈ N) (acG : Acyclic G)
    (finG : ∀ a b, G a b → a ∈ N ∧ b ∈ N) {x y : α} (hs : ∀ v, ¬ G y v) (hsR : ∀ v, ¬ R y v) (hxy : G x y) :
    Acyclic (Plus R x y) ∧ IMap (Plus R x y) G := by
  have hne : x ≠ y := fun q => hs y (q ▸ hxy)
  have hd : ¬ Desc R y x := fun q => by
    rcases q.cases_head with e | ⟨c, e, _⟩
    · exact hne e.symm
    · exact hsR c e
  have hsP : ∀ v, ¬ Plus R x y y v := by
    rintro v (k | ⟨q, _⟩)
    · exact hsR v k
    · exact hne q.symm
  have ac' := plus_acyclic acR finR (finG _ _ hxy).1 hd
  refine ⟨ac', imap_of_sink hnd ac' (plus_fin finR (finG _ _ hxy).1 (finG _ _ hxy).2) acG finG hs ?_ ?_⟩
  · intro a b C hay hby hy ha hb k
    by_contra hn
    rw [← con_iff ac' ha] at hn
    refine (con_iff acR ha).1 (con_drop_sink hsP ?_ hy hay hby hn) (h a b C ha hb k)
    rintro u v hv (k | ⟨_, q⟩)
    · exact k
    · exact absurd q hv
  · intro v hv hG
    refine dsep_last (P := fun w => G w y) ac' hsP (acG.irrefl y) ?_ hv hG
    rintro p (k | ⟨rfl, _⟩)
    · exact (h.adj acG (fun (q : p = y) => hsR y (q ▸ k)) (Or.inl k)).resolve_right (hs p)
    · exact hxy

/-- How far `R` is from `G`. -/
noncomputable def gap (N : List α) (R G : α → α → Prop) : Nat := by
  classical
  exact 2 * ((N.toFinset ×ˢ N.toFinset).filter (fun p => G p.1 p.2 ∧ ¬ Adj R p.1 p.2)).card +
    ((N.toFinset ×ˢ N.toFinset).filter (fun p => R p.1 p.2 ∧ G p.2 p.1)).card

theorem gap_plus {x w : α} (hx : x ∈ N) (hw : w ∈ N) (hna : ¬ Adj R x w) (hG : Adj G x w) :
    gap N (Plus R x w) G < gap N R G := by
  classical
  unfold gap
  have h1 : ((N.toFinset ×ˢ N.toFinset).filter (fun p => G p.1 p.2 ∧ ¬ Adj (Plus R x w) p.1 p.2)).card <
      ((N.toFinset ×ˢ N.toFinset).filter (fun p => G p.1 p.2 ∧ ¬ Adj R p.1 p.2)).card := by
    apply Finset.card_lt_card
    rw [Finset.ssubset_iff_of_subset]
    · rcases hG with k | k
      · refine ⟨(x, w), ?_, ?_⟩
        · simp only [Finset.mem_filter, Finset.mem_product, List.mem_toFinset]
          exact ⟨⟨hx, hw⟩, k, hna⟩
        · simp only [Finset.mem_filter, not_and, not_not]
          exact fun _ _ => Or.inl (Or.inr ⟨rfl, rfl⟩)
      · refine ⟨(w, x), ?_, ?_⟩
        · simp only [Finset.mem_filter, Finset.mem_product, List.mem_toFinset]
          exact ⟨⟨hw, hx⟩, k, fun q => hna q.symm⟩
        · simp only [Finset.mem_filter, not_and, not_not]
          exact fun _ _ => Or.inr (Or.inr ⟨rfl, rfl⟩)
    · rintro ⟨a, b⟩ hp
      simp only [Finset.mem_filter] at hp ⊢
      exact ⟨hp.1, hp.2.1, fun q => hp.2.2 (q.imp Or.inl Or.inl)⟩
  have h2 : ((N.toFinset ×ˢ N.toFinset).filter (fun p => Plus R x w p.1 p.2 ∧ G p.2 p.1)).card ≤
      ((N.toFinset ×ˢ N.toFinset).filter (fun p => R p.1 p.2 ∧ G p.2 p.1)).card + 1 := by
    refine le_trans (Finset.card_le_card (t := insert (x, w) ((N.toFinset ×ˢ N.toFinset).filter (fun p => R p.1 p.2 ∧ G p.2 p.1))) ?_)
      (Finset.card_insert_le _ _)
    rintro ⟨a, b⟩ hp
    simp only [Finset.mem_filter, Finset.mem_insert] at hp ⊢
    obtain ⟨h1, (k | ⟨rfl, rfl⟩), h3⟩ := hp
    · exact Or.inr ⟨h1, k, h3⟩
    · exact Or.inl rfl
  omega

theorem gap_flip (acG : Acyclic G) (finR : ∀ a b, R a b → a ∈ N ∧ b ∈ N) {y z : α} (h : Covered R y z) (hG : G z y) :
    gap N (Flip R y z) G < gap N R G := by
  classical
  unfold gap
  have h1 : ((N.toFinset ×ˢ N.toFinset).filter (fun p => G p.1 p.2 ∧ ¬ Adj (Flip R y z) p.1 p.2)) =
      ((N.toFinset ×ˢ N.toFinset).filter (fun p => G p.1 p.2 ∧ ¬ Adj R p.1 p.2)) := by
    apply Finset.filter_congr
    rintro p -
    rw [flip_adj h]
  have h2 : ((N.toFinset ×ˢ N.toFinset).filter (fun p => Flip R y z p.1 p.2 ∧ G p.2 p.1)).card <
      ((N.toFinset ×ˢ N.toFinset).filter (fun p => R p.1 p.2 ∧ G p.2 p.1)).card := by
    apply Finset.card_lt_card
    rw [Finset.ssubset_iff_of_subset]
    · refine ⟨(y, z), ?_, ?_⟩
      · simp only [Finset.mem_filter, Finset.mem_product, List.mem_toFinset]
        exact ⟨finR _ _ h.edge, h.edge, hG⟩
      · simp only [Finset.mem_filter, not_and]
        rintro - (⟨_, k⟩ | ⟨q, _⟩)
        · exact absurd ⟨rfl, rfl⟩ k
        · exact absurd (q ▸ hG : G z z) (acG.irrefl _)
    · rintro ⟨a, b⟩ hp
      simp only [Finset.mem_filter] at hp ⊢
      obtain ⟨h1, (⟨k, _⟩ | ⟨rfl, rfl⟩), h3⟩ := hp
      · exact ⟨h1, k, h3⟩
      · exact absurd h3 (acG.asymm _ _ hG)
  rw [h1]
  omega

/-- The conclusion of the theorem. -/
def Shrinks (R G : α → α → Prop) : Prop := InClass R G ∨ ∃ D i j, InClass G D ∧ D i j ∧ IMap R (Minus D i j)

theorem shrinks_plus (acR : Acyclic R) {x w : α} (hna : ¬ Adj R x w) (acP : Acyclic (Plus R x w)) (h : Shrinks (Plus R x w) G) :
    Shrinks R G := by
  rcases h with h | ⟨D, i, j, h1, h2, h3⟩
  · refine Or.inr ⟨Plus R x w, x, w, h.symm' acP, Or.inr ⟨rfl, rfl⟩, ?_⟩
    have : Minus (Plus R x w) x w = R := by
      funext a b
      apply propext
      constructor
      · rintro ⟨k | k, hk⟩
        · exact k
        · exact absurd k hk
      · intro k
        refine ⟨Or.inl k, ?_⟩
        rintro ⟨rfl, rfl⟩
        exact hna (Or.inl k)
    rw [this]
    exact IMap.refl R
  · exact Or.inr ⟨D, i, j, h1, h2, (imap_of_sub acR acP (fun _ _ => Or.inl)).trans h3⟩

/-- **Inclusion.** -/
theorem inclusion (m : Nat) : ∀ N : List α, N.length = m → N.Nodup → ∀ R G : α → α → Prop, Acyclic R → (∀ a b, R a b → a ∈ N ∧ b ∈ N) →
    Acyclic G → (∀ a b, G a b → a ∈ N ∧ b ∈ N) → IMap R G → Shrinks R G := by
  classical
  induction m with
  | zero =>
    intro N hN _ R G acR finR acG finG _
    rw [List.length_eq_zero_iff] at hN
    subst hN
    have nR : ∀ a b, ¬ R a b := fun a b k => by simpa using (finR a b k).1
    have nG : ∀ a b, ¬ G a b := fun a b k => by simpa using (finG a b k).1
    refine Or.inl ⟨acG, fun u v => ?_, fun u w v => ?_⟩
    · simp [Adj, nR, nG]
    · simp [VStruct, nR, nG]
  | succ m ihm =>
    intro N hN hnd R G acR finR acG finG hI
    suffices ∀ t (R : α → α → Prop), Acyclic R → (∀ a b, R a b → a ∈ N ∧ b ∈ N) → IMap R G → gap N R G = t → Shrinks R G from
      this _ R acR finR hI rfl
    intro t
    induction t using Nat.strong_induction_on with
    | _ t ih =>
      intro R acR finR hI ht
      have acr : Acyclic (fun u v => G v u) := fun u hu => acG u (Relation.transGen_swap.1 hu)
      obtain ⟨y, hyN, hmin⟩ := Graph.exists_minimal (R := fun u v => G v u) N (fun u v k => (finG v u k).2) acr (fun u => u ∈ N)
        (List.exists_mem_of_length_pos (by omega))
      have hs : ∀ v, ¬ G y v := fun v k => hmin v k (finG _ _ k).2
      have add : ∀ {x w}, x ∈ N → w ∈ N → x ≠ w → ¬ Adj R x w → Acyclic (Plus R x w) ∧ IMap (Plus R x w) G → Shrinks R G := by
        rintro x w hx hw hne hna ⟨ac', hI'⟩
        have hG : Adj G x w := hI'.adj acG hne (Or.inl (Or.inr ⟨rfl, rfl⟩))
        exact shrinks_plus acR hna ac' (ih _ (ht ▸ gap_plus hx hw hna hG) _ ac' (plus_fin finR hx hw) hI' rfl)
      by_cases hsR : ∀ v, ¬ R y v
      · by_cases hp : ∃ x, G x y ∧ ¬ R x y
        · obtain ⟨x, hx, hxR⟩ := hp
          exact add (finG _ _ hx).1 hyN (fun q => hs y (q ▸ hx)) (fun q => q.elim hxR (hsR x))
            (step_sink hnd hI acR finR acG finG hs hsR hx)
        · push Not at hp
          have hpar : ∀ x, R x y ↔ G x y :=
            fun x => ⟨fun k => (hI.adj acG (fun (q : x = y) => hsR y (q ▸ k)) (Or.inl k)).resolve_right (hs x), hp x⟩
          -- the graphs without the sink
          have fin0 : ∀ {H : α → α → Prop}, (∀ a b, H a b → a ∈ N ∧ b ∈ N) → (∀ v, ¬ H y v) →
              ∀ a b, (H a b ∧ b ≠ y) → a ∈ N.erase y ∧ b ∈ N.erase y := by
            intro H hH hHs a b k
            exact ⟨(List.mem_erase_of_ne (fun (q : a = y) => hHs b (q ▸ k.1))).2 (hH _ _ k.1).1, (List.mem_erase_of_ne k.2).2 (hH _ _ k.1).2⟩
          have acR0 : Acyclic (fun a b => R a b ∧ b ≠ y) := acR.sub fun _ _ k => k.1
          have acG0 : Acyclic (fun a b => G a b ∧ b ≠ y) := acG.sub fun _ _ k => k.1
          have hI0 : IMap (fun a b => R a b ∧ b ≠ y) (fun a b => G a b ∧ b ≠ y) := by
            intro a b C ha hb k
            have hab : a ≠ b := by rintro rfl; exact not_dsep_self _ k
            have alone : ∀ v, ¬ Adj (fun a b => R a b ∧ b ≠ y) y v := by
              rintro v (q | q)
              · exact hsR v q.1
              · exact q.2 rfl
            by_cases hay : a = y
            · subst hay; exact dsep_alone acR0 ha hab alone
            · by_cases hby : b = y
              · subst hby; exact (dsep_alone acR0 hb hab.symm alone).symm
              · rw [dsep_in acR0 (fin0 finR hsR) ha]
                rw [dsep_in acG0 (fin0 finG hs) ha] at k
                have hy : ¬ (C y ∧ y ∈ N.erase y) := fun q => (List.Nodup.not_mem_erase hnd) q.2
                have ha' : ¬ (C a ∧ a ∈ N.erase y) := fun q => ha q.1
                have hb' : ¬ (C b ∧ b ∈ N.erase y) := fun q => hb q.1
                have k' : DSep G a b (fun w => C w ∧ w ∈ N.erase y) := by
                  by_contra hn
                  rw [← con_iff (Z := fun w => C w ∧ w ∈ N.erase y) acG ha'] at hn
                  exact (con_iff (Z := fun w => C w ∧ w ∈ N.erase y) acG0 ha').1
                    (con_drop_sink hs (fun u v hv k => ⟨k, hv⟩) hy hay hby hn) k
                exact imap_of_sub acR0 acR (fun _ _ q => q.1) a b _ ha' hb' (hI a b _ ha' hb' k')
          -- and back
          have back : ∀ {H : α → α → Prop}, Acyclic H → (∀ a b, H a b → a ∈ N.erase y ∧ b ∈ N.erase y) →
              Acyclic (fun a b => H a b ∨ (R a y ∧ b = y)) ∧ (IMap (fun a b => R a b ∧ b ≠ y) H → IMap R (fun a b => H a b ∨ (R a y ∧ b = y))) := by
            intro H acH finH
            have hHy : ∀ v, ¬ H y v := fun v k => (List.Nodup.not_mem_erase hnd) (finH _ _ k).1
            have hHy' : ∀ v, ¬ H v y := fun v k => (List.Nodup.not_mem_erase hnd) (finH _ _ k).2
            have hs' : ∀ v, ¬ (H y v ∨ (R y y ∧ v = y)) := fun v q => q.elim (hHy v) (fun q => hsR y q.1)
            have acH' : Acyclic (fun a b => H a b ∨ (R a y ∧ b = y)) := by
              obtain ⟨r, hr⟩ := exists_rank acH finH
              obtain ⟨M, hM⟩ := exists_bound r N
              refine acyclic_of_rank (r := fun x => if x = y then M else r x) ?_
              rintro u v (k | ⟨k, rfl⟩)
              · have hu : u ≠ y := fun q => hHy v (q ▸ k)
                have hv : v ≠ y := fun q => hHy' u (q ▸ k)
                simp only [hu, hv, if_false]
                exact hr _ _ k
              · have hu : u ≠ v := fun q => hsR v (q ▸ k)
                simp only [hu, if_false, if_true]
                exact hM u (finR _ _ k).1
            refine ⟨acH', fun hIH => imap_of_sink hnd acR finR acH' ?_ hs' ?_ ?_⟩
            · rintro a b (k | ⟨k, rfl⟩)
              · exact ⟨List.mem_of_mem_erase (finH _ _ k).1, List.mem_of_mem_erase (finH _ _ k).2⟩
              · exact finR _ _ k
            · intro a b C hay hby hy ha hb k
              by_contra hn
              rw [← con_iff acR ha] at hn
              have hn' := con_drop_sink (R := fun a b => R a b ∧ b ≠ y) hsR (fun u v hv k => ⟨k, hv⟩) hy hay hby hn
              have := hIH.con acR0 acH ha hb hn'
              exact (con_iff acH' ha).1 (this.mono (fun _ _ => Or.inl)) k
            · intro v hv hG
              refine dsep_last acR hsR (hs' y) (fun p k => Or.inr ⟨k, rfl⟩) hv hG
          have len : (N.erase y).length = m := by rw [List.length_erase_of_mem hyN]; omega
          -- the class of a graph with the sink put back
          have cls : ∀ {H D : α → α → Prop}, (∀ a b, H a b → a ∈ N.erase y ∧ b ∈ N.erase y) → InClass H D →
              InClass (fun a b => H a b ∨ (R a y ∧ b = y)) (fun a b => D a b ∨ (R a y ∧ b = y)) := by
            intro H D finH hD
            have finD := hD.fin finH
            have hadj : ∀ u v, Adj (fun a b => D a b ∨ (R a y ∧ b = y)) u v ↔ Adj (fun a b => H a b ∨ (R a y ∧ b = y)) u v := by
              intro u v
              have := hD.adj u v
              simp only [Adj] at this ⊢
              tauto
            have no : ∀ {K : α → α → Prop}, (∀ a b, K a b → a ∈ N.erase y ∧ b ∈ N.erase y) → ∀ v, ¬ K v y :=
              fun hK v k => (List.Nodup.not_mem_erase hnd) (hK _ _ k).2
            have vs : ∀ {H D : α → α → Prop}, (∀ u v, Adj (fun a b => D a b ∨ (R a y ∧ b = y)) u v ↔ Adj (fun a b => H a b ∨ (R a y ∧ b = y)) u v) →
                (∀ u w v, VStruct D u w v → VStruct H u w v) → (∀ v, ¬ D v y) → ∀ u w v,
                VStruct (fun a b => D a b ∨ (R a y ∧ b = y)) u w v → VStruct (fun a b => H a b ∨ (R a y ∧ b = y)) u w v := by
              rintro H D hadj hv nD u w v ⟨h1, h2, h3, h4⟩
              by_cases hwy : w = y
              · subst hwy
                refine ⟨h1, Or.inr ⟨(h2.resolve_left (nD u)).1, rfl⟩, Or.inr ⟨(h3.resolve_left (nD v)).1, rfl⟩, fun q => h4 ((hadj u v).2 q)⟩
              · have d2 : D u w := h2.resolve_right (fun q => hwy q.2)
                have d3 : D v w := h3.resolve_right (fun q => hwy q.2)
                obtain ⟨_, k2, k3, _⟩ := hv u w v ⟨h1, d2, d3, fun q => h4 (q.imp Or.inl Or.inl)⟩
                exact ⟨h1, Or.inl k2, Or.inl k3, fun q => h4 ((hadj u v).2 q)⟩
            exact ⟨(back hD.acyclic finD).1, hadj, fun u w v => ⟨vs hadj (fun u w v => (hD.vstruct u w v).1) (no finD) u w v,
              vs (fun u v => (hadj u v).symm) (fun u w v => (hD.vstruct u w v).2) (no finH) u w v⟩⟩
          have eR : (fun a b => (R a b ∧ b ≠ y) ∨ (R a y ∧ b = y)) = R := by
            funext a b
            apply propext
            constructor
            · rintro (k | ⟨k, rfl⟩)
              · exact k.1
              · exact k
            · intro k
              by_cases hb : b = y
              · exact Or.inr ⟨hb ▸ k, hb⟩
              · exact Or.inl ⟨k, hb⟩
          have eG : (fun a b => (G a b ∧ b ≠ y) ∨ (R a y ∧ b = y)) = G := by
            funext a b
            apply propext
            constructor
            · rintro (k | ⟨k, rfl⟩)
              · exact k.1
              · exact (hpar a).1 k
            · intro k
              by_cases hb : b = y
              · exact Or.inr ⟨(hpar a).2 (hb ▸ k), hb⟩
              · exact Or.inl ⟨k, hb⟩
          rcases ihm (N.erase y) len (hnd.erase y) _ _ acR0 (fin0 finR hsR) acG0 (fin0 finG hs) hI0 with hc | ⟨D, i, j, h1, h2, h3⟩
          · have := cls (fin0 finR hsR) hc
            rw [eR, eG] at this
            exact Or.inl this
          · have hD := cls (fin0 finG hs) h1
            rw [eG] at hD
            have finD := h1.fin (fin0 finG hs)
            have hjy : j ≠ y := fun q => (List.Nodup.not_mem_erase hnd) (q ▸ (finD _ _ h2).2)
            refine Or.inr ⟨_, i, j, hD, Or.inl h2, ?_⟩
            have := (back (H := Minus D i j) (h1.acyclic.sub fun _ _ k => k.1) (fun a b k => finD a b k.1)).2 h3
            have e : (fun a b => Minus D i j a b ∨ (R a y ∧ b = y)) = Minus (fun a b => D a b ∨ (R a y ∧ b = y)) i j := by
              funext a b
              apply propext
              constructor
              · rintro (⟨k, hk⟩ | ⟨k, rfl⟩)
                · exact ⟨Or.inl k, hk⟩
                · exact ⟨Or.inr ⟨k, rfl⟩, fun q => hjy q.2.symm⟩
              · rintro ⟨k | k, hk⟩
                · exact Or.inl ⟨k, hk⟩
                · exact Or.inr k
            rwa [e] at this
      · push Not at hsR
        obtain ⟨c, hc⟩ := hsR
        obtain ⟨e, he, htop⟩ := exists_top hI acR acG finG y
        have hey : e ≠ y := by
          rintro rfl
          rcases (htop c (.single hc)).cases_head with q | ⟨d, k, _⟩
          · subst q; exact acR.irrefl _ hc
          · exact hs d k
        have hex : ∃ z, R y z ∧ Desc R z e := by
          rcases he.cases_head with q | ⟨z, k, q⟩
          · exact absurd q.symm hey
          · exact ⟨z, k, q⟩
        have acT : Acyclic (Relation.TransGen R) := fun u k => acR u (by rwa [Relation.transGen_eq_self] at k)
        have finT : ∀ a b, Relation.TransGen R a b → a ∈ N := by
          intro a b k
          obtain ⟨c, e, _⟩ := Relation.TransGen.head'_iff.1 k
          exact (finR _ _ e).1
        obtain ⟨z, ⟨hyz, hze⟩, hzmin⟩ := Graph.exists_minimal (R := Relation.TransGen R) N finT acT (fun z => R y z ∧ Desc R z e) hex
        have hzy : y ≠ z := fun q => acR.irrefl y (by rw [← q] at hyz; exact hyz)
        by_cases hcov : Covered R y z
        · have hG : G z y := (hI.adj acG hzy (Or.inl hyz)).resolve_left (hs z)
          have hF := flip_inClass acR finR hnd hcov
          rcases ih _ (ht ▸ gap_flip acG finR hcov hG) (Flip R y z) hF.acyclic (flip_fin finR hcov)
            ((flip_imap acR finR hnd hcov).trans hI) rfl with q | ⟨D, i, j, h1, h2, h3⟩
          · exact Or.inl (hF.trans' q)
          · exact Or.inr ⟨D, i, j, h1, h2, (flip_main acR finR hnd hcov).2.trans h3⟩
        · by_cases h7 : ∃ x, R x y ∧ ¬ R x z
          · obtain ⟨x, hxy, hxz⟩ := h7
            have hzx : ¬ R z x := fun q => acR x (((Relation.TransGen.single hxy).tail hyz).tail q)
            refine add (finR _ _ hxy).1 (finR _ _ hyz).2 ?_ (fun q => q.elim hxz hzx) (step_chain hnd hI acR finR acG finG hs hxy hyz)
            rintro rfl
            exact acR.asymm _ _ hxy hyz
          · push Not at h7
            have h8 : ∃ x, R x z ∧ x ≠ y ∧ ¬ R x y := by
              by_contra hn
              push Not at hn
              refine hcov (fun x => ⟨fun k => ?_, ?_⟩)
              · by_cases q : x = y
                · exact Or.inl q
                · exact Or.inr (hn x k q)
              · rintro (rfl | k)
                · exact hyz
                · exact h7 x k
            obtain ⟨x, hxz, hne, hxy⟩ := h8
            have hd : ¬ Desc R y x := by
              intro q
              rcases q.cases_head with q | ⟨z', k, q⟩
              · exact hne q.symm
              · exact hzmin z' (Relation.TransGen.tail' q hxz) ⟨k, (q.tail hxz).trans hze⟩
            exact add (finR _ _ hxz).1 hyN hne (fun q => q.elim hxy (fun q => hd (.single q)))
              (step_collider hnd hI acR finR acG finG hs hxz hyz hd hze htop)

end Spec
end Cdmir
