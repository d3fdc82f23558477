import Verif.Lemmas.Covered

/-!
The two unsound rules on at most five nodes: when the third or the fourth rule fires after the first rule has seen every unshielded collider, the
chosen direction is right.
-/

set_option linter.unusedSectionVars false

namespace Cdmir
namespace Spec
variable {α : Type} {D : α → α → Prop} {N : List α}

/-- A covered edge is not in all members of the class. -/
theorem not_covered (ac : Acyclic D) (fin : ∀ a b, D a b → a ∈ N ∧ b ∈ N) (hnd : N.Nodup) {a b : α} (h : ∀ D', InClass D D' → D' a b) :
    ¬ Covered D a b := by
  intro hc
  rcases h _ (flip_inClass ac fin hnd hc) with k | ⟨q, _⟩
  · exact k.2 ⟨rfl, rfl⟩
  · have := hc.edge
    rw [q] at this
    exact ac.irrefl _ this

/-- Two covered reversals one after the other. -/
theorem not_covered_flip (ac : Acyclic D) (fin : ∀ a b, D a b → a ∈ N ∧ b ∈ N) (hnd : N.Nodup) {a b c d : α} (h : ∀ D', InClass D D' → D' a b)
    (h1 : Covered D c d) : ¬ Covered (Flip D c d) a b := by
  have k := flip_inClass ac fin hnd h1
  exact not_covered k.acyclic (flip_fin fin h1) hnd fun D' h' => h D' (k.trans' h')

/-- Five different nodes are all of at most five. -/
theorem five_all [DecidableEq α] (h5 : N.length ≤ 5) {a b c d e : α} (ha : a ∈ N) (hb : b ∈ N) (hc : c ∈ N) (hd : d ∈ N) (he : e ∈ N)
    (hn : [a, b, c, d, e].Nodup) {z : α} (hz : z ∈ N) : z = a ∨ z = b ∨ z = c ∨ z = d ∨ z = e := by
  by_contra hne
  have hn' : (z :: [a, b, c, d, e]).Nodup := by
    refine List.nodup_cons.2 ⟨fun q => hne ?_, hn⟩
    simpa using q
  have := (List.subperm_of_subset hn' (l₂ := N) (by
    intro x hx
    simp only [List.mem_cons, List.not_mem_nil, or_false] at hx
    rcases hx with rfl | rfl | rfl | rfl | rfl | rfl <;> assumption)).length_le
  simp at this
  omega

/-- The inequalities of five different nodes, in both directions. -/
theorem five_ne {a b c d e : α} (h : [a, b, c, d, e].Nodup) : (a ≠ b ∧ a ≠ c ∧ a ≠ d ∧ a ≠ e ∧ b ≠ c ∧ b ≠ d ∧ b ≠ e ∧ c ≠ d ∧ c ≠ e ∧ d ≠ e) ∧
    b ≠ a ∧ c ≠ a ∧ d ≠ a ∧ e ≠ a ∧ c ≠ b ∧ d ≠ b ∧ e ≠ b ∧ d ≠ c ∧ e ≠ c ∧ e ≠ d := by
  simp only [List.nodup_cons, List.mem_cons, List.not_mem_nil, or_false, not_or, not_false_eq_true, List.nodup_nil, and_true] at h
  obtain ⟨⟨d1, d2, d3, d4⟩, ⟨d5, d6, d7⟩, ⟨d8, d9⟩, d10⟩ := h
  exact ⟨⟨d1, d2, d3, d4, d5, d6, d7, d8, d9, d10⟩, Ne.symm d1, Ne.symm d2, Ne.symm d3, Ne.symm d4, Ne.symm d5, Ne.symm d6, Ne.symm d7, Ne.symm d8,
    Ne.symm d9, Ne.symm d10⟩

section
variable [DecidableEq α] (hnd : N.Nodup) (h5 : N.length ≤ 5) (ac : Acyclic D) (fin : ∀ a b, D a b → a ∈ N ∧ b ∈ N)
include hnd h5 ac fin

/-- The case in which the fifth node only meets the first two of the clique. -/
theorem five3_end {u v w x y : α} (hxw : ∀ D', InClass D D' → D' x w) (e1 : D v x) (e2 : D v w) (e4 : D w u) (e5 : D v u) (e6 : D x u)
    (e7 : D y x) (e8 : D v y) (n1 : ¬ Adj D y w) (n2 : ¬ Adj D y u) (hdis : [u, v, w, x, y].Nodup) : False := by
  have e3 : D x w := hxw D ⟨ac, fun _ _ => Iff.rfl, fun _ _ _ => Iff.rfl⟩
  have hall := fun z hz => five_all h5 (fin _ _ e4).2 (fin _ _ e1).1 (fin _ _ e4).1 (fin _ _ e1).2 (fin _ _ e7).1 hdis (z := z) hz
  have out : ∀ {z}, z ∉ N → ∀ b, ¬ D z b := fun hz b k => hz (fin _ _ k).1
  have ir := ac.irrefl
  have f1 := ac.asymm _ _ e1
  have f2 := ac.asymm _ _ e2
  have f3 := ac.asymm _ _ e3
  have f4 := ac.asymm _ _ e4
  have f5 := ac.asymm _ _ e5
  have f6 := ac.asymm _ _ e6
  have f7 := ac.asymm _ _ e7
  have f8 := ac.asymm _ _ e8
  have g1 : ¬ D y w := fun k => n1 (Or.inl k)
  have g2 : ¬ D w y := fun k => n1 (Or.inr k)
  have g3 : ¬ D y u := fun k => n2 (Or.inl k)
  have g4 : ¬ D u y := fun k => n2 (Or.inr k)
  obtain ⟨⟨d1, d2, d3, d4, d5, d6, d7, d8, d9, d10⟩, c1, c2, c3, c4, c5, c6, c7, c8, c9, c10⟩ := five_ne hdis
  have mx := (fin _ _ e1).2
  have my := (fin _ _ e7).1
  have hc : Covered D y x := by
    intro z
    by_cases hz : z ∈ N
    · rcases hall z hz with rfl | rfl | rfl | rfl | rfl <;> simp [*]
    · simp only [out hz, false_iff, or_false]
      rintro rfl
      exact hz my
  refine not_covered_flip ac fin hnd hxw hc fun z => ?_
  unfold Flip
  by_cases hz : z ∈ N
  · rcases hall z hz with rfl | rfl | rfl | rfl | rfl <;> simp [*]
  · have h2 : z ≠ x := fun q => hz (q ▸ mx)
    simp [out hz, h2, d8]

/-- The third rule: `v` before `x`. -/
theorem five3_half {u v w x : α} {U : α → α → Prop} (Us : ∀ a b, U a b → U b a) (U1 : ∀ a b z, U a b → ¬ VStruct D a b z)
    (U2 : ∀ p q r z, U q r → VStruct D p q z → p ≠ r → Adj D p r) (hxw : ∀ D', InClass D D' → D' x w) (e1 : D v x) (e2 : D v w) (e4 : D w u)
    (uw : U u w) (uv : U u v) (ux : U u x) (auv : Adj D u v) (aux : Adj D u x) : False := by
  have e3 : D x w := hxw D ⟨ac, fun _ _ => Iff.rfl, fun _ _ _ => Iff.rfl⟩
  have ir := ac.irrefl
  have ne : ∀ {a b}, D a b → a ≠ b := by rintro a b k rfl; exact ir _ k
  have tr : ∀ {a b c}, D a b → D b c → Adj D a c → D a c := by
    intro a b c k1 k2 k3
    exact k3.resolve_right fun q => ac a (((Relation.TransGen.single k1).tail k2).tail q)
  have tr3 : ∀ {a b c d}, D a b → D b c → D c d → Adj D a d → D a d := by
    intro a b c d k1 k2 k3 k4
    exact k4.resolve_right fun q => ac a ((((Relation.TransGen.single k1).tail k2).tail k3).tail q)
  have e5 : D v u := tr e2 e4 auv.symm
  have e6 : D x u := tr e3 e4 aux.symm
  have hnc := not_covered ac fin hnd hxw
  unfold Covered at hnc
  push Not at hnc
  obtain ⟨y, hy⟩ := hnc
  have f1 := ac.asymm _ _ e1
  have f2 := ac.asymm _ _ e2
  have f3 := ac.asymm _ _ e3
  have f4 := ac.asymm _ _ e4
  have f5 := ac.asymm _ _ e5
  have f6 := ac.asymm _ _ e6
  have nxw := ne e3
  have yx : y ≠ x := by rintro rfl; simp [e3] at hy
  have yv : y ≠ v := by rintro rfl; simp [e2, e1] at hy
  have yu : y ≠ u := by rintro rfl; simp [f4, f6, (ne e6).symm] at hy
  have yw : y ≠ w := by rintro rfl; simp [ir, f3, nxw.symm] at hy
  have hdis : [u, v, w, x, y].Nodup := by
    simp [(ne e5).symm, (ne e4).symm, (ne e6).symm, yu.symm, ne e2, ne e1, yv.symm, nxw.symm, yw.symm, yx.symm]
  have hcase : (D y w ∧ ¬ D y x) ∨ (D y x ∧ ¬ D y w) := by
    by_cases k1 : D y w <;> by_cases k2 : D y x <;> simp [k1, k2, yx] at hy ⊢
  rcases hcase with ⟨a1, a2⟩ | ⟨b1, b2⟩
  · have yuD : ∀ {z}, VStruct D y w z → D y u := fun k => tr a1 e4 (U2 _ _ _ _ (Us _ _ uw) k yu)
    by_cases hyx : Adj D y x
    · have a3 : D x y := hyx.resolve_left a2
      have a4 : D v y := by
        refine tr e1 a3 ?_
        by_contra hn
        have k := yuD ⟨yv, a1, e2, fun q => hn q.symm⟩
        exact U1 _ _ y (Us _ _ uv) ⟨yv.symm, e5, k, hn⟩
      have hall := fun z hz => five_all h5 (fin _ _ e4).2 (fin _ _ e1).1 (fin _ _ e4).1 (fin _ _ e1).2 (fin _ _ a1).1 hdis (z := z) hz
      have out : ∀ {z}, z ∉ N → ∀ b, ¬ D z b := fun hz b k => hz (fin _ _ k).1
      have g1 := ac.asymm _ _ a1
      have g2 : ¬ D u y := fun q => ac u (((Relation.TransGen.single q).tail a1).tail e4)
      have g3 := ac.asymm _ _ a3
      have g4 := ac.asymm _ _ a4
      have my := (fin _ _ a1).1
      have mx := (fin _ _ e1).2
      obtain ⟨⟨d1, d2, d3, d4, d5, d6, d7, d8, d9, d10⟩, c1, c2, c3, c4, c5, c6, c7, c8, c9, c10⟩ := five_ne hdis
      have hc : Covered D y w := by
        intro z
        by_cases hz : z ∈ N
        · rcases hall z hz with rfl | rfl | rfl | rfl | rfl <;> simp [*]
        · simp only [out hz, false_iff, or_false]
          rintro rfl
          exact hz my
      refine not_covered_flip ac fin hnd hxw hc fun z => ?_
      unfold Flip
      by_cases hz : z ∈ N
      · rcases hall z hz with rfl | rfl | rfl | rfl | rfl <;> simp [*]
      · have h2 : z ≠ x := fun q => hz (q ▸ mx)
        simp [out hz, h2, d9, d10]
    · have k := yuD ⟨yx, a1, e3, hyx⟩
      exact U1 _ _ y (Us _ _ ux) ⟨yx.symm, e6, k, fun q => hyx q.symm⟩
  · have n1 : ¬ Adj D y w := fun q => b2 (tr b1 e3 q)
    have n2 : ¬ Adj D y u := fun q => U1 _ _ y (Us _ _ uw) ⟨yw.symm, e4, tr3 b1 e3 e4 q, fun q => n1 q.symm⟩
    have a : Adj D v y := by
      by_contra hn
      exact n2 (U2 _ _ _ v (Us _ _ ux) ⟨yv, b1, e1, fun q => hn q.symm⟩ yu)
    rcases a with b3 | b3
    · exact five3_end hnd h5 ac fin hxw e1 e2 e4 e5 e6 b1 b3 n1 n2 hdis
    · have hall := fun z hz => five_all h5 (fin _ _ e4).2 (fin _ _ e1).1 (fin _ _ e4).1 (fin _ _ e1).2 (fin _ _ b1).1 hdis (z := z) hz
      have out : ∀ {z}, z ∉ N → ∀ b, ¬ D z b := fun hz b k => hz (fin _ _ k).1
      have g1 : ¬ D w y := fun k => n1 (Or.inr k)
      have g2 : ¬ D u y := fun k => n2 (Or.inr k)
      have g3 := ac.asymm _ _ b3
      have g4 := ac.asymm _ _ b1
      have my := (fin _ _ b1).1
      obtain ⟨⟨d1, d2, d3, d4, d5, d6, d7, d8, d9, d10⟩, c1, c2, c3, c4, c5, c6, c7, c8, c9, c10⟩ := five_ne hdis
      have hc : Covered D y v := by
        intro z
        by_cases hz : z ∈ N
        · rcases hall z hz with rfl | rfl | rfl | rfl | rfl <;> simp [*]
        · simp only [out hz, false_iff, or_false]
          rintro rfl
          exact hz my
      have hk := flip_inClass ac fin hnd hc
      have keep : ∀ {a b}, D a b → b ≠ v → Flip D y v a b := fun k q => Or.inl ⟨k, fun q' => q q'.2⟩
      exact five3_end hnd h5 hk.acyclic (flip_fin fin hc) (fun D' h' => hxw D' (hk.trans' h')) (keep e1 c6) (keep e2 c5) (keep e4 d1) (keep e5 d1)
        (keep e6 d1) (keep b1 c6) (Or.inr ⟨rfl, rfl⟩) (fun q => n1 ((flip_adj hc _ _).1 q)) (fun q => n2 ((flip_adj hc _ _).1 q)) hdis

/-- The third rule on five nodes. -/
theorem five3 {u v w x : α} {U : α → α → Prop} (Us : ∀ a b, U a b → U b a) (U1 : ∀ a b z, U a b → ¬ VStruct D a b z)
    (U2 : ∀ p q r z, U q r → VStruct D p q z → p ≠ r → Adj D p r) (hvw : ∀ D', InClass D D' → D' v w) (hxw : ∀ D', InClass D D' → D' x w)
    (avx : Adj D v x) (uw : U u w) (uv : U u v) (ux : U u x) (auw : Adj D u w) (auv : Adj D u v) (aux : Adj D u x) : D u w := by
  refine auw.resolve_right fun e4 => ?_
  have self : InClass D D := ⟨ac, fun _ _ => Iff.rfl, fun _ _ _ => Iff.rfl⟩
  rcases avx with k | k
  · exact five3_half hnd h5 ac fin Us U1 U2 hxw k (hvw D self) e4 uw uv ux auv aux
  · exact five3_half hnd h5 ac fin Us U1 U2 hvw k (hxw D self) e4 uw ux uv aux auv

/-- The fourth rule on five nodes. -/
theorem five4 {u v w x : α} {U : α → α → Prop} (Us : ∀ a b, U a b → U b a) (U1 : ∀ a b z, U a b → ¬ VStruct D a b z)
    (U2 : ∀ p q r z, U q r → VStruct D p q z → p ≠ r → Adj D p r) (hvw : ∀ D', InClass D D' → D' v w) (huw : u ≠ w) (nuw : ¬ Adj D u w)
    (uv : U u v) (ux : U u x) (xw : U x w) (auv : Adj D u v) (aux : Adj D u x) (axw : Adj D x w) (avx : Adj D v x) : D x w := by
  refine axw.resolve_right fun e2 => ?_
  have e1 : D v w := hvw D ⟨ac, fun _ _ => Iff.rfl, fun _ _ _ => Iff.rfl⟩
  have ir := ac.irrefl
  have ne : ∀ {a b}, D a b → a ≠ b := by rintro a b k rfl; exact ir _ k
  have tr : ∀ {a b c}, D a b → D b c → Adj D a c → D a c := by
    intro a b c k1 k2 k3
    exact k3.resolve_right fun q => ac a (((Relation.TransGen.single k1).tail k2).tail q)
  have e3 : D x u := aux.symm.resolve_right fun q => U1 _ _ w ux ⟨huw, q, e2, nuw⟩
  have e4 : D v x := tr e1 e2 avx
  have e5 : D v u := tr e4 e3 auv.symm
  have hnc := not_covered ac fin hnd hvw
  unfold Covered at hnc
  push Not at hnc
  obtain ⟨y, hy⟩ := hnc
  have f1 := ac.asymm _ _ e1
  have f2 := ac.asymm _ _ e2
  have f3 := ac.asymm _ _ e3
  have f4 := ac.asymm _ _ e4
  have f5 := ac.asymm _ _ e5
  have f6 : ¬ D u w := fun q => nuw (Or.inl q)
  have f7 : ¬ D w u := fun q => nuw (Or.inr q)
  have yv : y ≠ v := by rintro rfl; simp [e1] at hy
  have yx : y ≠ x := by rintro rfl; simp [f2, f4, (ne e4).symm] at hy
  have yu : y ≠ u := by rintro rfl; simp [f6, f5, (ne e5).symm] at hy
  have yw : y ≠ w := by rintro rfl; simp [ir, f1, (ne e1).symm] at hy
  have hdis : [u, v, w, x, y].Nodup := by
    simp [(ne e5).symm, huw, (ne e3).symm, yu.symm, ne e1, ne e4, yv.symm, ne e2, yw.symm, yx.symm]
  have hcase : (D y w ∧ ¬ D y v) ∨ (D y v ∧ ¬ D y w) := by
    by_cases k1 : D y w <;> by_cases k2 : D y v <;> simp [k1, k2, yv] at hy ⊢
  have my : y ∈ N := hcase.elim (fun k => (fin _ _ k.1).1) (fun k => (fin _ _ k.1).1)
  have hall := fun z hz => five_all h5 (fin _ _ e3).2 (fin _ _ e1).1 (fin _ _ e1).2 (fin _ _ e3).1 my hdis (z := z) hz
  have out : ∀ {z}, z ∉ N → ∀ b, ¬ D z b := fun hz b k => hz (fin _ _ k).1
  obtain ⟨⟨d1, d2, d3, d4, d5, d6, d7, d8, d9, d10⟩, c1, c2, c3, c4, c5, c6, c7, c8, c9, c10⟩ := five_ne hdis
  have mv := (fin _ _ e1).1
  rcases hcase with ⟨a1, a2⟩ | ⟨b1, b2⟩
  · by_cases hyv : Adj D y v
    · have a3 : D v y := hyv.resolve_left a2
      have g1 := ac.asymm _ _ a1
      have g2 : ¬ D x y := fun q => ac x (((Relation.TransGen.single q).tail a1).tail e2)
      have g3 : ¬ D u y := fun q => ac u ((((Relation.TransGen.single q).tail a1).tail e2).tail e3)
      have hc : Covered D y w := by
        intro z
        by_cases hz : z ∈ N
        · rcases hall z hz with rfl | rfl | rfl | rfl | rfl <;> simp [*]
        · simp only [out hz, false_iff, or_false]
          rintro rfl
          exact hz my
      refine not_covered_flip ac fin hnd hvw hc fun z => ?_
      unfold Flip
      by_cases hz : z ∈ N
      · rcases hall z hz with rfl | rfl | rfl | rfl | rfl <;> simp [*]
      · have h2 : z ≠ v := fun q => hz (q ▸ mv)
        simp [out hz, h2, d9, d7]
    · have k1 : Adj D y x := U2 _ _ _ v (Us _ _ xw) ⟨yv, a1, e1, hyv⟩ yx
      have k2 : D y x := tr a1 e2 k1
      have k3 : Adj D y u := U2 _ _ _ v (Us _ _ ux) ⟨yv, k2, e4, hyv⟩ yu
      exact U1 _ _ y (Us _ _ uv) ⟨yv.symm, e5, tr k2 e3 k3, fun q => hyv q.symm⟩
  · have n1 : ¬ Adj D y w := fun q => b2 (tr b1 e1 q)
    have n2 : ¬ Adj D y x := fun q => U1 _ _ y (Us _ _ xw) ⟨yw.symm, e2, tr b1 e4 q, fun q => n1 q.symm⟩
    have n3 : ¬ Adj D y u := fun q => U1 _ _ y (Us _ _ ux) ⟨yx.symm, e3, tr b1 e5 q, fun q => n2 q.symm⟩
    have g1 : ¬ D w y := fun k => n1 (Or.inr k)
    have g2 : ¬ D x y := fun k => n2 (Or.inr k)
    have g3 : ¬ D u y := fun k => n3 (Or.inr k)
    have g4 := ac.asymm _ _ b1
    have hc : Covered D y v := by
      intro z
      by_cases hz : z ∈ N
      · rcases hall z hz with rfl | rfl | rfl | rfl | rfl <;> simp [*]
      · simp only [out hz, false_iff, or_false]
        rintro rfl
        exact hz my
    refine not_covered_flip ac fin hnd hvw hc fun z => ?_
    unfold Flip
    by_cases hz : z ∈ N
    · rcases hall z hz with rfl | rfl | rfl | rfl | rfl <;> simp [*]
    · have h2 : z ≠ v := fun q => hz (q ▸ mv)
      simp [out hz, h2, d7]

end
end Spec
end Cdmir
