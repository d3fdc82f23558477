import Verif.Lemmas.IMap
import Verif.Lemmas.Essential
import Mathlib.Data.List.Sort

/-!
DAGs of one class have the same d-separations: the class is connected by reversals of covered edges.
-/

set_option linter.unusedSectionVars false

namespace Cdmir
namespace Spec
variable {α : Type} {R G D : α → α → Prop} {N : List α}

/-- An acyclic finite relation has ranks. -/
theorem exists_rank (ac : Acyclic G) (fin : ∀ a b, G a b → a ∈ N ∧ b ∈ N) : ∃ r : α → Nat, ∀ u v, G u v → r u < r v := by
  classical
  refine ⟨fun u => (N.toFinset.filter (fun w => Relation.TransGen G w u)).card, fun p u hpu => Finset.card_lt_card ?_⟩
  rw [Finset.ssubset_iff_of_subset]
  · refine ⟨p, ?_, ?_⟩
    · simp only [Finset.mem_filter, List.mem_toFinset]
      exact ⟨(fin p u hpu).1, Relation.TransGen.single hpu⟩
    · simp only [Finset.mem_filter, not_and]
      exact fun _ => ac p
  · intro w hw
    simp only [Finset.mem_filter] at hw ⊢
    exact ⟨hw.1, hw.2.tail hpu⟩

theorem rank_desc {r : α → Nat} (hr : ∀ u v, G u v → r u < r v) {u v : α} (h : Desc G u v) : r u ≤ r v := by
  induction h with
  | refl => exact le_rfl
  | tail _ e ih => exact ih.trans (hr _ _ e).le

theorem rank_trans {r : α → Nat} (hr : ∀ u v, G u v → r u < r v) {u v : α} (h : Relation.TransGen G u v) : r u < r v := by
  induction h with
  | single e => exact hr _ _ e
  | tail _ e ih => exact ih.trans (hr _ _ e)

theorem acyclic_of_rank {r : α → Nat} (hr : ∀ u v, G u v → r u < r v) : Acyclic G :=
  fun _ k => lt_irrefl _ (rank_trans hr k)

/-- Ranks as an order of the nodes. -/
theorem imap_of_rank (acR : Acyclic R) (finR : ∀ a b, R a b → a ∈ N ∧ b ∈ N) (finG : ∀ a b, G a b → a ∈ N ∧ b ∈ N) (hnd : N.Nodup)
    {r : α → Nat} (hr : ∀ u v, G u v → r u < r v)
    (h : ∀ v ∈ N, ∀ n ∈ N, v ≠ n → r v ≤ r n → ¬ G v n → DSep R v n (fun w => G w n)) : IMap R G := by
  let l := N.insertionSort (fun a b => r b ≤ r a)
  have : Std.Total (fun a b : α => r b ≤ r a) := ⟨fun a b => le_total _ _⟩
  have : IsTrans α (fun a b : α => r b ≤ r a) := ⟨fun a b c h1 h2 => h2.trans h1⟩
  have hp : l.Perm N := List.perm_insertionSort _ N
  have hs : l.Pairwise (fun a b => r b ≤ r a) := List.pairwise_insertionSort _ N
  have hln : l.Nodup := hp.nodup_iff.2 hnd
  refine imap_of_ordered (N := l) acR (acyclic_of_rank hr) (fun a b k => ⟨hp.mem_iff.2 (finR a b k).1, hp.mem_iff.2 (finR a b k).2⟩)
    (fun a b k => ⟨hp.mem_iff.2 (finG a b k).1, hp.mem_iff.2 (finG a b k).2⟩) ?_
  rintro n l' ⟨s, hsl⟩
  rw [← hsl] at hs hln
  have h1 := (List.pairwise_append.1 hs)
  have hn := List.nodup_append.1 hln
  have hnl : n ∈ N := hp.mem_iff.1 (by rw [← hsl]; simp)
  have hnn : n ∉ l' := (List.nodup_cons.1 hn.2.1).1
  refine ⟨hnn, fun p hp' => ?_, fun v hv hG => ?_⟩
  · have : p ∈ s ++ n :: l' := by rw [hsl]; exact hp.mem_iff.2 (finG _ _ hp').1
    rcases List.mem_append.1 this with q | q
    · exact absurd (h1.2.2 p q n (by simp)) (by have := hr _ _ hp'; omega)
    · rcases List.mem_cons.1 q with rfl | q
      · exact absurd (hr _ _ hp') (lt_irrefl _)
      · exact q
  · exact h v (hp.mem_iff.1 (by rw [← hsl]; simp [hv])) n hnl (fun q => hnn (q ▸ hv)) ((List.pairwise_cons.1 h1.2.1).1 v hv) hG

/-- The d-separation of a node from those of no higher rank. -/
theorem IMap.ranked (h : IMap R G) {r : α → Nat} (hr : ∀ u v, G u v → r u < r v) {v n : α} (hne : v ≠ n) (hvn : r v ≤ r n)
    (hG : ¬ G v n) : DSep R v n (fun w => G w n) := by
  have ac := acyclic_of_rank hr
  refine h v n _ hG (ac.irrefl n) (dsep_parents ac hne ?_ ?_)
  · rintro (k | k)
    · exact hG k
    · have := hr _ _ k; omega
  · intro k
    rcases k.cases_head with q | ⟨c, e, k⟩
    · exact hne q.symm
    · have := hr _ _ e
      have := rank_desc hr k
      omega

theorem IMap.refl (R : α → α → Prop) : IMap R R := fun _ _ _ _ _ k => k

theorem IMap.trans {S : α → α → Prop} (h : IMap R G) (h' : IMap G S) : IMap R S := fun x y Z hx hy k => h x y Z hx hy (h' x y Z hx hy k)

/-- A bound for the ranks. -/
theorem exists_bound (r : α → Nat) (N : List α) : ∃ M, ∀ x ∈ N, r x < M := by
  induction N with
  | nil => exact ⟨0, by simp⟩
  | cons a N ih =>
    obtain ⟨M, hM⟩ := ih
    refine ⟨max M (r a + 1), fun x hx => ?_⟩
    rcases List.mem_cons.1 hx with rfl | hx
    · omega
    · have := hM x hx
      omega

/-- The edge `y -> z` is covered: `z` has the parents of `y` and `y`. -/
def Covered (R : α → α → Prop) (y z : α) : Prop := ∀ x, R x z ↔ x = y ∨ R x y

/-- The edge `y -> z` reversed. -/
def Flip (R : α → α → Prop) (y z a b : α) : Prop := (R a b ∧ ¬ (a = y ∧ b = z)) ∨ (a = z ∧ b = y)

section flip
variable {y z : α}

theorem Covered.edge (h : Covered R y z) : R y z := (h y).2 (Or.inl rfl)

theorem flip_fin (fin : ∀ a b, R a b → a ∈ N ∧ b ∈ N) (h : Covered R y z) : ∀ a b, Flip R y z a b → a ∈ N ∧ b ∈ N := by
  rintro a b (k | ⟨rfl, rfl⟩)
  · exact fin a b k.1
  · exact (fin _ _ h.edge).symm

/-- A covered edge reversed: acyclic, and the d-separations of the new graph hold in the old one. -/
theorem flip_main (ac : Acyclic R) (fin : ∀ a b, R a b → a ∈ N ∧ b ∈ N) (hnd : N.Nodup) (h : Covered R y z) :
    Acyclic (Flip R y z) ∧ IMap R (Flip R y z) := by
  classical
  obtain ⟨r, hr⟩ := exists_rank ac fin
  obtain ⟨M, hM⟩ := exists_bound r N
  have hyz := h.edge
  have hne : y ≠ z := fun q => ac.irrefl y (by rw [q]; exact q ▸ hyz)
  have hyN := (fin _ _ hyz).1
  have hzN := (fin _ _ hyz).2
  let r' : α → Nat := fun x => if x = z then M else if x = y then M + 1 else if Desc R y x then M + 2 + r x else r x
  have rz : r' z = M := if_pos rfl
  have ry : r' y = M + 1 := by simp [r', hne]
  have rB : ∀ {x}, x ≠ z → x ≠ y → Desc R y x → r' x = M + 2 + r x := fun h1 h2 h3 => by simp [r', h1, h2, h3]
  have rA : ∀ {x}, ¬ Desc R y x → r' x = r x := fun {x} h3 => by
    have h1 : x ≠ z := fun q => h3 (q ▸ .single hyz)
    have h2 : x ≠ y := fun q => h3 (q ▸ .refl)
    simp [r', h1, h2, h3]
  have hP : ∀ {x}, R x y → ¬ Desc R y x := fun k q => ac y (Relation.TransGen.tail' q k)
  have hrank : ∀ u v, Flip R y z u v → r' u < r' v := by
    rintro u v (⟨k, hk⟩ | ⟨rfl, rfl⟩)
    · by_cases hvz : v = z
      · subst hvz
        rcases (h u).1 k with rfl | k
        · exact absurd ⟨rfl, rfl⟩ hk
        · rw [rz, rA (hP k)]
          exact hM u (fin _ _ k).1
      · by_cases hvy : v = y
        · subst hvy
          rw [ry, rA (hP k)]
          have := hM u (fin _ _ k).1
          omega
        · by_cases hv : Desc R y v
          · rw [rB hvz hvy hv]
            by_cases huz : u = z
            · rw [huz, rz]; omega
            · by_cases huy : u = y
              · rw [huy, ry]; omega
              · by_cases hu : Desc R y u
                · rw [rB huz huy hu]; have := hr _ _ k; omega
                · rw [rA hu]; have := hr _ _ k; omega
          · have hu : ¬ Desc R y u := fun q => hv (q.tail k)
            rw [rA hv, rA hu]
            exact hr _ _ k
    · rw [rz, ry]; omega
  refine ⟨acyclic_of_rank hrank, imap_of_rank ac fin (flip_fin fin h) hnd hrank ?_⟩
  intro v hvN n hnN hvn hle hG
  have loc := fun {v n : α} (h1 : v ≠ n) (h2 : r v ≤ r n) (h3 : ¬ R v n) => (IMap.refl R).ranked hr h1 h2 h3
  -- non-descendants
  have loc' : ∀ {v n : α}, v ≠ n → ¬ Desc R n v → ¬ R v n → DSep R v n (fun w => R w n) := by
    intro v n h1 h2 h3
    refine dsep_parents ac h1 ?_ h2
    rintro (k | k)
    · exact h3 k
    · exact h2 (.single k)
  have hMr : ∀ {x}, Desc R y x → x ≠ z → x ≠ y → M + 2 ≤ r' x := fun h1 h2 h3 => by rw [rB h2 h3 h1]; omega
  -- the two facts about a non-descendant of `y`
  have key : ∀ {v}, ¬ Desc R y v → ¬ R v y → DSep R v y (fun w => R w y) ∧ DSep R v z (fun w => R w y) := by
    intro v h1 h2
    have hvy : v ≠ y := fun q => h1 (q ▸ .refl)
    have hvz : v ≠ z := fun q => h1 (q ▸ .single hyz)
    have a1 := loc' hvy h1 h2
    have hdz : ¬ Desc R z v := fun q => h1 (.head hyz q)
    have a2 := loc' hvz hdz (fun q => ((h v).1 q).elim hvy h2)
    refine ⟨a1, ?_⟩
    rw [dsep_swap (Z := fun w => R w y) (d := y) ac h2 (ac.irrefl y) hvy a1]
    exact (dsep_congr (fun w => (h w).trans or_comm) v z).1 a2
  by_cases hnz : n = z
  · subst hnz
    rw [rz] at hle
    have hvy : v ≠ y := fun q => by rw [q, ry] at hle; omega
    have hd : ¬ Desc R y v := fun q => by have := hMr q hvn hvy; omega
    have hpar : ∀ w, R w y ↔ Flip R y n w n := by
      intro w
      constructor
      · intro k
        refine Or.inl ⟨(h w).2 (Or.inr k), fun q => ac.irrefl y ?_⟩
        obtain ⟨rfl, _⟩ := q
        exact k
      · rintro (⟨k, hk⟩ | ⟨rfl, q⟩)
        · exact ((h w).1 k).resolve_left (fun q => hk ⟨q, rfl⟩)
        · exact absurd q.symm hne
    exact (dsep_congr hpar v n).1 (key hd (fun q => hG ((hpar v).1 q))).2
  · by_cases hny : n = y
    · subst hny
      rw [ry] at hle
      have hvz : v ≠ z := fun q => hG (Or.inr ⟨q, rfl⟩)
      have hd : ¬ Desc R n v := fun q => by have := hMr q hvz hvn; omega
      have hpar : ∀ w, (R w n ∨ w = z) ↔ Flip R n z w n := by
        intro w
        constructor
        · rintro (k | rfl)
          · exact Or.inl ⟨k, fun q => hne q.2⟩
          · exact Or.inr ⟨rfl, rfl⟩
        · rintro (⟨k, _⟩ | ⟨rfl, _⟩)
          · exact Or.inl k
          · exact Or.inr rfl
      have hvn' : ¬ R v n := fun q => hG ((hpar v).1 (Or.inl q))
      obtain ⟨a1, a2⟩ := key hd hvn'
      exact (dsep_congr hpar v n).1 ((dsep_swap (Z := fun w => R w n) ac hvn' (fun k => ac.asymm _ _ hyz k) hvz a2).1 a1)
    · have hpar : ∀ w, R w n ↔ Flip R y z w n := by
        intro w
        constructor
        · exact fun k => Or.inl ⟨k, fun q => hnz q.2⟩
        · rintro (⟨k, _⟩ | ⟨_, q⟩)
          · exact k
          · exact absurd q hny
      refine (dsep_congr hpar v n).1 (loc' hvn (fun q => ?_) (fun q => hG ((hpar v).1 q)))
      -- a descendant of `n` has a higher rank
      rcases q.cases_head with e | ⟨c, e, q'⟩
      · exact hvn e.symm
      · have hlt : r n < r v := (hr _ _ e).trans_le (rank_desc hr q')
        by_cases hdn : Desc R y n
        · have hdv : Desc R y v := hdn.trans q
          have hvz : v ≠ z := by
            rintro rfl
            rcases q.cases_tail with e' | ⟨c', k', e'⟩
            · exact hvn e'
            · rcases (h c').1 e' with rfl | e''
              · rcases k'.cases_head with e1 | ⟨c1, e1, k1⟩
                · exact hny e1
                · exact ac n ((Relation.TransGen.head' e1 k1).trans_left hdn)
              · exact hP e'' (hdn.trans k')
          have hvy : v ≠ y := by
            rintro rfl
            exact ac n ((Relation.TransGen.head' e q').trans_left hdn)
          rw [rB hnz hny hdn, rB hvz hvy hdv] at hle
          omega
        · rw [rA hdn] at hle
          by_cases hdv : Desc R y v
          · have : M ≤ r' v := by
              by_cases hvz : v = z
              · rw [hvz, rz]
              · by_cases hvy : v = y
                · rw [hvy, ry]; omega
                · have := hMr hdv hvz hvy; omega
            have := hM n hnN
            omega
          · rw [rA hdv] at hle
            omega

theorem flip_covered (ac : Acyclic R) (h : Covered R y z) : Covered (Flip R y z) z y := by
  have hyz := h.edge
  have hne : y ≠ z := fun q => ac.irrefl y (by rw [q]; exact q ▸ hyz)
  intro x
  constructor
  · rintro (⟨k, _⟩ | ⟨q, _⟩)
    · refine Or.inr (Or.inl ⟨(h x).2 (Or.inr k), fun q => ac.irrefl y ?_⟩)
      obtain ⟨rfl, _⟩ := q
      exact k
    · exact Or.inl q
  · rintro (rfl | ⟨k, hk⟩ | ⟨_, q⟩)
    · exact Or.inr ⟨rfl, rfl⟩
    · exact Or.inl ⟨((h x).1 k).resolve_left (fun q => hk ⟨q, rfl⟩), fun q => hne q.2⟩
    · exact absurd q.symm hne

theorem flip_flip (ac : Acyclic R) (h : Covered R y z) : Flip (Flip R y z) z y = R := by
  have hyz := h.edge
  funext a b
  apply propext
  constructor
  · rintro (⟨⟨k, _⟩ | k, hk⟩ | ⟨rfl, rfl⟩)
    · exact k
    · exact absurd k hk
    · exact hyz
  · intro k
    by_cases hab : a = y ∧ b = z
    · exact Or.inr hab
    · refine Or.inl ⟨Or.inl ⟨k, hab⟩, ?_⟩
      rintro ⟨rfl, rfl⟩
      exact ac.asymm _ _ hyz k

theorem flip_adj (h : Covered R y z) (u v : α) : Adj (Flip R y z) u v ↔ Adj R u v := by
  have hyz := h.edge
  constructor
  · rintro ((⟨k, _⟩ | ⟨rfl, rfl⟩) | (⟨k, _⟩ | ⟨rfl, rfl⟩))
    · exact Or.inl k
    · exact Or.inr hyz
    · exact Or.inr k
    · exact Or.inl hyz
  · rintro (k | k)
    · by_cases q : u = y ∧ v = z
      · exact Or.inr (Or.inr ⟨q.2, q.1⟩)
      · exact Or.inl (Or.inl ⟨k, q⟩)
    · by_cases q : v = y ∧ u = z
      · exact Or.inl (Or.inr ⟨q.2, q.1⟩)
      · exact Or.inr (Or.inl ⟨k, q⟩)

theorem flip_vstruct (h : Covered R y z) {u w v : α} (k : VStruct R u w v) : VStruct (Flip R y z) u w v := by
  obtain ⟨h1, h2, h3, h4⟩ := k
  have par : ∀ {a b}, R a z → R b z → a = y → a ≠ b → Adj R a b := by
    rintro a b ha hb rfl hab
    exact Or.inr (((h b).1 hb).resolve_left (fun q => hab q.symm))
  refine ⟨h1, Or.inl ⟨h2, ?_⟩, Or.inl ⟨h3, ?_⟩, fun q => h4 ((flip_adj h u v).1 q)⟩
  · rintro ⟨q1, rfl⟩
    exact h4 (par h2 h3 q1 h1)
  · rintro ⟨q1, rfl⟩
    exact h4 (par h3 h2 q1 h1.symm).symm

theorem flip_inClass (ac : Acyclic R) (fin : ∀ a b, R a b → a ∈ N ∧ b ∈ N) (hnd : N.Nodup) (h : Covered R y z) :
    InClass R (Flip R y z) := by
  have ac' := (flip_main ac fin hnd h).1
  refine ⟨ac', flip_adj h, fun u w v => ⟨fun k => ?_, flip_vstruct h⟩⟩
  have := flip_vstruct (flip_covered ac h) k
  rwa [flip_flip ac h] at this

/-- The two graphs have the same d-separations. -/
theorem flip_imap (ac : Acyclic R) (fin : ∀ a b, R a b → a ∈ N ∧ b ∈ N) (hnd : N.Nodup) (h : Covered R y z) :
    IMap (Flip R y z) R := by
  have := (flip_main (flip_main ac fin hnd h).1 (flip_fin fin h) hnd (flip_covered ac h)).2
  rwa [flip_flip ac h] at this

end flip

theorem InClass.symm' (ac : Acyclic G) (h : InClass G D) : InClass D G :=
  ⟨ac, fun u v => (h.adj u v).symm, fun u w v => (h.vstruct u w v).symm⟩

theorem InClass.trans' {S : α → α → Prop} (h : InClass G D) (h' : InClass D S) : InClass G S :=
  ⟨h'.acyclic, fun u v => (h'.adj u v).trans (h.adj u v), fun u w v => (h'.vstruct u w v).trans (h.vstruct u w v)⟩

theorem InClass.fin (h : InClass G D) (fin : ∀ a b, G a b → a ∈ N ∧ b ∈ N) : ∀ a b, D a b → a ∈ N ∧ b ∈ N := by
  intro a b k
  rcases (h.adj a b).1 (Or.inl k) with q | q
  · exact fin _ _ q
  · exact (fin _ _ q).symm

/-- Two different members of a class: an edge of the one that is reversed in the other is covered. -/
theorem exists_covered (ac : Acyclic G) (fin : ∀ a b, G a b → a ∈ N ∧ b ∈ N) (h : InClass G D) (hne : ∃ a b, G a b ∧ D b a) :
    ∃ x y, G x y ∧ D y x ∧ Covered G x y := by
  classical
  obtain ⟨a, b, hab⟩ := hne
  obtain ⟨y, ⟨x0, hx0⟩, hy⟩ := Graph.exists_minimal (R := G) N (fun u v k => (fin u v k).1) ac (fun b => ∃ a, G a b ∧ D b a) ⟨b, a, hab⟩
  have acr : Acyclic (fun u v => G v u) := fun u hu => ac u (Relation.transGen_swap.1 hu)
  obtain ⟨x, ⟨hxy, hyx⟩, hx⟩ := Graph.exists_minimal (R := fun u v => G v u) N (fun u v k => (fin v u k).2) acr (fun a => G a y ∧ D y a)
    ⟨x0, hx0⟩
  -- edges into a parent of `y` are not reversed
  have keep : ∀ {u w}, G u w → G w y → D u w := by
    intro u w k kw
    refine ((h.adj u w).2 (Or.inl k)).resolve_right (fun q => hy w kw ⟨u, k, q⟩)
  refine ⟨x, y, hxy, hyx, fun w => ⟨fun k => ?_, ?_⟩⟩
  · by_cases hwx : w = x
    · exact Or.inl hwx
    · refine Or.inr ?_
      have hadj : Adj G x w := by
        by_contra hn
        have := (h.vstruct x y w).2 ⟨fun q => hwx q.symm, hxy, k, hn⟩
        exact h.acyclic.asymm _ _ hyx this.2.1
      refine hadj.resolve_left (fun q => ?_)
      have d1 : D x w := keep q k
      have d2 : D y w := by
        refine ((h.adj y w).2 (Or.inr k)).resolve_right (fun q' => ?_)
        exact h.acyclic x (((Relation.TransGen.single d1).tail q').tail hyx)
      exact hx w q ⟨k, d2⟩
  · rintro (rfl | k)
    · exact hxy
    · have d1 : D w x := keep k hxy
      have hwy : w ≠ y := by rintro rfl; exact ac.asymm _ _ k hxy
      have hadj : Adj G w y := by
        by_contra hn
        have := (h.vstruct w x y).1 ⟨hwy, d1, hyx, fun q => hn ((h.adj w y).1 q)⟩
        exact ac.asymm _ _ hxy this.2.2.1
      exact hadj.resolve_right (fun q => ac w (((Relation.TransGen.single k).tail hxy).tail q))

/-- **Members of a class have the same d-separations.** -/
theorem inClass_imap (hnd : N.Nodup) (ac : Acyclic G) (fin : ∀ a b, G a b → a ∈ N ∧ b ∈ N) (h : InClass G D) : IMap G D := by
  classical
  suffices ∀ m (G : α → α → Prop), Acyclic G → (∀ a b, G a b → a ∈ N ∧ b ∈ N) → InClass G D →
      ((N.toFinset ×ˢ N.toFinset).filter (fun p => G p.1 p.2 ∧ D p.2 p.1)).card = m → IMap G D from this _ G ac fin h rfl
  intro m
  induction m using Nat.strong_induction_on with
  | _ m ih =>
    intro G ac fin h hm
    by_cases hne : ∃ a b, G a b ∧ D b a
    · obtain ⟨x, y, hxy, hyx, hc⟩ := exists_covered ac fin h hne
      have hI := flip_inClass ac fin hnd hc
      have hlt : ((N.toFinset ×ˢ N.toFinset).filter (fun p => Flip G x y p.1 p.2 ∧ D p.2 p.1)).card < m := by
        rw [← hm]
        apply Finset.card_lt_card
        rw [Finset.ssubset_iff_of_subset]
        · refine ⟨(x, y), ?_, ?_⟩
          · simp only [Finset.mem_filter, Finset.mem_product, List.mem_toFinset]
            exact ⟨fin _ _ hxy, hxy, hyx⟩
          · simp only [Finset.mem_filter, not_and]
            rintro - (⟨_, k⟩ | ⟨rfl, _⟩)
            · exact absurd ⟨rfl, rfl⟩ k
            · exact absurd hxy (ac.irrefl _)
        · rintro ⟨a, b⟩ hw
          simp only [Finset.mem_filter] at hw ⊢
          obtain ⟨h1, (⟨k, _⟩ | ⟨rfl, rfl⟩), h3⟩ := hw
          · exact ⟨h1, k, h3⟩
          · exact absurd h3 (h.acyclic.asymm _ _ hyx)
      have := ih _ hlt (Flip G x y) hI.acyclic (flip_fin fin hc) ((hI.symm' ac).trans' h) rfl
      exact (flip_main ac fin hnd hc).2.trans this
    · have : G = D := by
        funext a b
        apply propext
        constructor
        · intro k
          exact ((h.adj a b).2 (Or.inl k)).resolve_right (fun q => hne ⟨a, b, k, q⟩)
        · intro k
          exact ((h.adj a b).1 (Or.inl k)).resolve_right (fun q => hne ⟨b, a, q, k⟩)
      rw [this]
      exact IMap.refl D

end Spec
end Cdmir
