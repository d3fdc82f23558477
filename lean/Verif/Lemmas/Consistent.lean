import Verif.Lemmas.Inclusion
import Verif.Lemmas.GESValid

/-! What a locally consistent score tells about the classes in which the phases of GES end. -/

set_option linter.unusedSectionVars false

namespace Cdmir
open Graph Spec GES

section
variable {α : Type} [DecidableEq α] {K : Type} [Field K] [LinearOrder K] [IsStrictOrderedRing K] {N : List α} {R G D : α → α → Prop}

omit [DecidableEq α] in
/-- Taking a parent away from one node changes the score by the local score of that node. -/
theorem score_minus (hnd : N.Nodup) {score : α → List α → K} (hsc : SetScore score) (fin : ∀ a b, D a b → a ∈ N ∧ b ∈ N) {i j : α} (hij : D i j)
    {s t : K} (hs : DagScore score N D s) (ht : DagScore score N (Minus D i j) t) :
    ∃ l : List α, l.Nodup ∧ (∀ x, x ∈ l ↔ Minus D i j x j) ∧ t = s + (score j l - score j (i :: l)) := by
  have fD : ∀ a b, D a b → a ∈ N := fun a b k => (fin a b k).1
  have fM : ∀ a b, Minus D i j a b → a ∈ N := fun a b k => fD a b k.1
  have hl : (parentsIn N (Minus D i j) j).Nodup := by unfold parentsIn; exact hnd.filter _
  have hi : i ∉ parentsIn N (Minus D i j) j := fun k => ((mem_parentsIn fM j i).1 k).2 ⟨rfl, rfl⟩
  refine ⟨parentsIn N (Minus D i j) j, hl, fun x => mem_parentsIn fM j x, ?_⟩
  rw [dagScore_unique hnd fD hs, dagScore_unique hnd fM ht, sum_change hnd (fin _ _ hij).2 (f := fun v => score v (parentsIn N D v))]
  · congr 2
    refine hsc j _ _ (by unfold parentsIn; exact hnd.filter _) (List.nodup_cons.2 ⟨hi, hl⟩) (fun x => ?_)
    rw [mem_parentsIn fD, List.mem_cons, mem_parentsIn fM]
    constructor
    · intro k
      by_cases q : x = i
      · exact Or.inl q
      · exact Or.inr ⟨k, fun h => q h.1⟩
    · rintro (rfl | k)
      · exact hij
      · exact k.1
  · intro v _ hv
    rw [parentsIn_congr (A := Minus D i j) (B := D)]
    exact fun x => ⟨fun k => k.1, fun k => ⟨k, fun q => hv q.2⟩⟩

omit [DecidableEq α] in
theorem minus_plus {i j : α} (h : ¬ G i j) : Minus (Plus G i j) i j = G := by
  funext a b
  apply propext
  constructor
  · rintro ⟨k | k, hk⟩
    · exact k
    · exact absurd k hk
  · exact fun k => ⟨Or.inl k, by rintro ⟨rfl, rfl⟩; exact h k⟩

omit [DecidableEq α] in
/-- A class to which no edge can be added with gain contains the independences of `R`. -/
theorem imap_of_insertOptimal (hnd : N.Nodup) {score : α → List α → K} (hsc : SetScore score) (acR : Acyclic R)
    (finR : ∀ a b, R a b → a ∈ N ∧ b ∈ N) (hlc : LocallyConsistent score N R) (acG : Acyclic G) (finG : ∀ a b, G a b → a ∈ N ∧ b ∈ N)
    {s : K} (hs : DagScore score N G s)
    (ho : ∀ i ∈ N, ∀ j ∈ N, i ≠ j → ¬ Adj G i j → Acyclic (Plus G i j) → ∀ t, DagScore score N (Plus G i j) t → t ≤ s) : IMap R G := by
  classical
  obtain ⟨r, hr⟩ := exists_rank acG finG
  refine imap_of_rank acR finR finG hnd hr (fun v hv n hn hne hvn hG => ?_)
  have hna : ¬ Adj G v n := fun q => q.elim hG (fun q => absurd (hr _ _ q) (by omega))
  have hd : ¬ Desc G n v := fun q => by
    rcases Relation.reflTransGen_iff_eq_or_transGen.1 q with q | q
    · exact hne q
    · exact absurd (rank_trans hr q) (by omega)
  have acP := plus_acyclic acG finG hv hd
  have finP := plus_fin finG hv hn
  have sP := dagScore_exists hnd hsc (fun a b k => (finP a b k).1)
  have hle := ho v hv n hn hne hna acP _ sP
  have hs' : DagScore score N (Minus (Plus G v n) v n) s := by rwa [minus_plus hG]
  obtain ⟨l, hl, hm, e⟩ := score_minus hnd hsc finP (Or.inr ⟨rfl, rfl⟩) sP hs'
  rw [minus_plus hG] at hm
  by_contra hds
  have hcg : DSep R v n (fun w => G w n) ↔ DSep R v n (fun x => x ∈ l) := dsep_congr (fun w => (hm w).symm) v n
  have := (hlc v hv n hn hne l hl (fun x hx => (finG _ _ ((hm x).1 hx)).1) (fun q => hG ((hm v).1 q)) (fun q => acG.irrefl n ((hm n).1 q))).2
    (fun q => hds (hcg.2 q))
  linarith

omit [DecidableEq α] in
/-- The parents of a removed edge separate its ends if the score rises, and only then. -/
theorem sep_iff_gain (hnd : N.Nodup) {score : α → List α → K} (hsc : SetScore score) (hlc : LocallyConsistent score N R)
    (ac : Acyclic D) (fin : ∀ a b, D a b → a ∈ N ∧ b ∈ N) {i j : α} (hij : D i j) {s t : K} (hs : DagScore score N D s)
    (ht : DagScore score N (Minus D i j) t) : DSep R i j (fun w => Minus D i j w j) ↔ s < t := by
  obtain ⟨l, hl, hm, e⟩ := score_minus hnd hsc fin hij hs ht
  have hne : i ≠ j := fun q => ac.irrefl j (by rw [q] at hij; exact hij)
  have hcg : DSep R i j (fun w => Minus D i j w j) ↔ DSep R i j (fun x => x ∈ l) := dsep_congr (fun w => (hm w).symm) i j
  have := hlc i (fin _ _ hij).1 j (fin _ _ hij).2 hne l hl (fun x hx => (fin _ _ ((hm x).1 hx).1).1) (fun q => ((hm i).1 q).2 ⟨rfl, rfl⟩)
    (fun q => ac.irrefl j ((hm j).1 q).1)
  rw [hcg]
  constructor
  · intro q
    have := this.1 q
    linarith
  · intro q
    by_contra hn
    have := this.2 hn
    linarith

omit [DecidableEq α] in
/-- Taking such an edge away keeps the independence map. -/
theorem imap_minus (hnd : N.Nodup) (acR : Acyclic R) (finR : ∀ a b, R a b → a ∈ N ∧ b ∈ N) (ac : Acyclic D)
    (fin : ∀ a b, D a b → a ∈ N ∧ b ∈ N) (h : IMap R D) {i j : α} (hij : D i j) (hsep : DSep R i j (fun w => Minus D i j w j)) :
    IMap R (Minus D i j) := by
  classical
  obtain ⟨r, hr⟩ := exists_rank ac fin
  have hne : i ≠ j := fun q => ac.irrefl j (by rw [q] at hij; exact hij)
  refine imap_of_rank acR finR (fun a b k => fin a b k.1) hnd (fun u v k => hr u v k.1) (fun v hv n hn hvne hvn hG => ?_)
  by_cases hnj : n = j
  · subst hnj
    by_cases hvi : v = i
    · exact hvi ▸ hsep
    · have hvn' : ¬ D v n := fun q => hG ⟨q, fun k => hvi k.1⟩
      have h1 := (h.ranked hr hvne hvn hvn').symm
      have h2 := (dsep_swap (Z := fun w => Minus D i n w n) (b := v) acR (fun q => ac.irrefl n q.1) (fun q => q.2 ⟨rfl, rfl⟩) hne.symm hsep.symm).2
        ((dsep_congr (fun w => ?_) n v).1 h1)
      · exact h2.symm
      · constructor
        · intro k
          by_cases q : w = i
          · exact Or.inr q
          · exact Or.inl ⟨k, fun h => q h.1⟩
        · rintro (k | rfl)
          · exact k.1
          · exact hij
  · have hvn' : ¬ D v n := fun q => hG ⟨q, fun k => hnj k.2⟩
    exact (dsep_congr (fun w => ⟨fun k => ⟨k, fun q => hnj q.2⟩, fun k => k.1⟩) v n).1 (h.ranked hr hvne hvn hvn')

omit [DecidableEq α] in
/-- A class that is an independence map of `R` and from which no edge can be taken with gain is the class of `R`. -/
theorem inClass_of_deleteOptimal (hnd : N.Nodup) {score : α → List α → K} (hsc : SetScore score) (acR : Acyclic R)
    (finR : ∀ a b, R a b → a ∈ N ∧ b ∈ N) (hlc : LocallyConsistent score N R) (acG : Acyclic G) (finG : ∀ a b, G a b → a ∈ N ∧ b ∈ N)
    (h : IMap R G) {s : K} (hs : ∀ D, InClass G D → DagScore score N D s)
    (ho : ∀ D, InClass G D → ∀ i j, D i j → ∀ t, DagScore score N (Minus D i j) t → t ≤ s) : InClass R G := by
  rcases inclusion N.length N rfl hnd R G acR finR acG finG h with q | ⟨D, i, j, hD, hij, hI⟩
  · exact q
  · exfalso
    have finD := hD.fin finG
    have sM := dagScore_exists hnd hsc (D := Minus D i j) (fun a b k => (finD a b k.1).1)
    refine absurd (ho D hD i j hij _ sM) (not_le.2 ((sep_iff_gain hnd hsc hlc hD.acyclic finD hij (hs D hD) sM).1 ?_))
    have acM : Acyclic (Minus D i j) := hD.acyclic.sub fun _ _ k => k.1
    have hne : i ≠ j := fun q => hD.acyclic.irrefl j (by rw [q] at hij; exact hij)
    refine hI i j _ (fun q => q.2 ⟨rfl, rfl⟩) (acM.irrefl j) (dsep_parents acM hne ?_ ?_)
    · rintro (q | q)
      · exact q.2 ⟨rfl, rfl⟩
      · exact hD.acyclic.asymm _ _ hij q.1
    · intro q
      exact hD.acyclic i (Relation.TransGen.head' hij (Relation.ReflTransGen.mono (fun _ _ k => k.1) _ _ q))

end
end Cdmir
