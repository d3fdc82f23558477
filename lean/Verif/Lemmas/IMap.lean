import Verif.Spec.IMap
import Verif.Lemmas.Markov
import Verif.Lemmas.Topo

/-!
d-separation as a relation on triples: it allows exchanging members of the conditioning set, and the d-separations of a node
from its predecessors given its parents, in one order, imply all others.
-/

set_option linter.unusedSectionVars false

namespace Cdmir
namespace Spec
variable {α : Type} {R G : α → α → Prop} {Z : α → Prop}

/-- Connected by an active trail. -/
def Con (R : α → α → Prop) (Z : α → Prop) (x y : α) : Prop := ∃ d, Reach R Z x (y, d)

theorem con_iff (ac : Acyclic R) {x y : α} (hx : ¬ Z x) : Con R Z x y ↔ ¬ DSep R x y Z := by
  unfold Con
  rw [reach_iff_path ac.asymm hx]
  unfold DSep
  push Not
  rfl

theorem Con.symm (ac : Acyclic R) {x y : α} (hx : ¬ Z x) (hy : ¬ Z y) (h : Con R Z x y) : Con R Z y x := by
  rw [con_iff ac hy]
  rw [con_iff ac hx] at h
  exact fun k => h k.symm

theorem AncZ.mono {R' : α → α → Prop} {Z' : α → Prop} (hR : ∀ a b, R a b → R' a b) (hZ : ∀ a, Z a → Z' a) {y : α} (h : AncZ R Z y) :
    AncZ R' Z' y := by
  obtain ⟨w, hw, hd⟩ := h
  exact ⟨w, hZ w hw, Relation.ReflTransGen.mono hR _ _ hd⟩

theorem Move.mono {R' : α → α → Prop} (hR : ∀ a b, R a b → R' a b) {s t : α × Bool} (h : Move R Z s t) : Move R' Z s t := by
  cases h with
  | up_pa hz e => exact .up_pa hz (hR _ _ e)
  | up_ch hz e => exact .up_ch hz (hR _ _ e)
  | down_ch hz e => exact .down_ch hz (hR _ _ e)
  | down_pa ha e => exact .down_pa (ha.mono hR (fun _ k => k)) (hR _ _ e)

theorem Con.mono {R' : α → α → Prop} (hR : ∀ a b, R a b → R' a b) {x y : α} (h : Con R Z x y) : Con R' Z x y := by
  obtain ⟨d, h⟩ := h
  exact ⟨d, Relation.ReflTransGen.mono (fun _ _ k => k.mono hR) _ _ h⟩

/-- A subgraph has more d-separations. -/
theorem imap_of_sub (acR : Acyclic R) (acG : Acyclic G) (h : ∀ a b, R a b → G a b) : IMap R G := by
  intro x y Z hx hy hs
  by_contra hn
  rw [← con_iff acR hx] at hn
  exact (con_iff acG hx).1 (hn.mono h) hs

/-- `a` and `d` d-separated: other d-separations of `a` do not change when `d` is added to the conditioning set. -/
theorem dsep_swap (ac : Acyclic R) {a b d : α} (ha : ¬ Z a) (hd : ¬ Z d) (had : a ≠ d) (h : DSep R a d Z) :
    DSep R a b Z ↔ DSep R a b (fun w => Z w ∨ w = d) := by
  have hn : ¬ Con R Z a d := fun k => (con_iff ac ha).1 k h
  have ha' : ¬ (Z a ∨ a = d) := fun k => k.elim ha had
  rw [← not_iff_not, ← con_iff ac ha, ← con_iff (Z := fun w => Z w ∨ w = d) ac ha']
  constructor
  · rintro ⟨β, k⟩
    refine ⟨β, ?_⟩
    generalize (b, β) = s at k
    induction k with
    | refl => exact .refl
    | @tail s t hs m ih =>
      refine ih.tail ?_
      have hsd : s.1 ≠ d := by
        rintro rfl
        exact hn ⟨s.2, hs⟩
      cases m with
      | up_pa hz e => exact .up_pa (fun k => k.elim hz hsd) e
      | up_ch hz e => exact .up_ch (fun k => k.elim hz hsd) e
      | down_ch hz e => exact .down_ch (fun k => k.elim hz hsd) e
      | down_pa hz e => exact .down_pa (hz.mono (fun _ _ k => k) (fun _ k => Or.inl k)) e
  · rintro ⟨β, k⟩
    refine ⟨β, ?_⟩
    generalize (b, β) = s at k
    induction k with
    | refl => exact .refl
    | @tail s t hs m ih =>
      refine ih.tail ?_
      cases m with
      | up_pa hz e => exact .up_pa (fun k => hz (Or.inl k)) e
      | up_ch hz e => exact .up_ch (fun k => hz (Or.inl k)) e
      | down_ch hz e => exact .down_ch (fun k => hz (Or.inl k)) e
      | @down_pa y p hz e =>
        by_cases hA : AncZ R Z y
        · exact .down_pa hA e
        · exfalso
          obtain ⟨w, hw | rfl, hyw⟩ := hz
          · exact hA ⟨w, hw, hyw⟩
          · exact hn (reach_down ih hyw hA)

/-- The same for a list of nodes. -/
theorem dsep_swaps (ac : Acyclic R) {a : α} (ha : ¬ Z a) (q : List α) (hq : ∀ d ∈ q, ¬ Z d ∧ a ≠ d ∧ DSep R a d Z) :
    ∀ b, b ∉ q → (DSep R a b Z ↔ DSep R a b (fun w => Z w ∨ w ∈ q)) := by
  induction q with
  | nil => intro b _; exact dsep_congr (by simp) a b
  | cons d q ih =>
    intro b hb
    have hq' := fun x hx => hq x (List.mem_cons_of_mem _ hx)
    obtain ⟨hd1, hd2, hd3⟩ := hq d (by simp)
    rw [ih hq' b (fun k => hb (List.mem_cons_of_mem _ k))]
    by_cases hdq : d ∈ q
    · refine dsep_congr (fun w => ?_) a b
      simp only [List.mem_cons]
      constructor
      · rintro (k | k)
        · exact Or.inl k
        · exact Or.inr (Or.inr k)
      · rintro (k | rfl | k)
        · exact Or.inl k
        · exact Or.inr hdq
        · exact Or.inr k
    · rw [dsep_swap (Z := fun w => Z w ∨ w ∈ q) (d := d) ac (fun k => k.elim ha (fun k => (hq' a k).2.1 rfl)) (fun k => k.elim hd1 hdq)
        hd2 ((ih hq' d hdq).1 hd3)]
      refine dsep_congr (fun w => ?_) a b
      simp only [List.mem_cons]
      tauto

section sink
variable {n : α}

/-- Trails never leave a sink that is not in the conditioning set; putting it there keeps them. -/
theorem reach_sink (hs : ∀ v, ¬ R n v) (hz : ¬ Z n) {a : α} (han : a ≠ n) {s : α × Bool} (h : Reach R Z a s) :
    Reach R (fun w => Z w ∨ w = n) a s ∧ (s.1 = n → s.2 = false) := by
  induction h with
  | refl => exact ⟨.refl, fun k => absurd k han⟩
  | @tail s t _ m ih =>
    obtain ⟨h1, h2⟩ := ih
    have hA : ∀ {y}, AncZ R Z y → y ≠ n := by
      rintro y ⟨w, hw, hd⟩ rfl
      rcases hd.cases_head with rfl | ⟨c, e, _⟩
      · exact hz hw
      · exact hs c e
    cases m with
    | @up_pa y p k e =>
      have hn : y ≠ n := fun q => by simpa using h2 q
      exact ⟨h1.tail (.up_pa (fun q => q.elim k hn) e), fun q => absurd (q ▸ e : R n y) (hs y)⟩
    | @up_ch y p k e => exact ⟨h1.tail (.up_ch (fun q => q.elim k (fun q => hs p (q ▸ e))) e), fun _ => rfl⟩
    | @down_ch y p k e => exact ⟨h1.tail (.down_ch (fun q => q.elim k (fun q => hs p (q ▸ e))) e), fun _ => rfl⟩
    | @down_pa y p k e =>
      exact ⟨h1.tail (.down_pa (k.mono (fun _ _ k => k) (fun _ k => Or.inl k)) e), fun q => absurd (q ▸ e : R n y) (hs y)⟩

theorem con_sink (hs : ∀ v, ¬ R n v) (hz : ¬ Z n) {a b : α} (han : a ≠ n) (h : Con R Z a b) : Con R (fun w => Z w ∨ w = n) a b := by
  obtain ⟨d, h⟩ := h
  exact ⟨d, (reach_sink hs hz han h).1⟩

/-- Two nodes connected with a sink are connected given the sink. -/
theorem con_join (ac : Acyclic R) (hs : ∀ v, ¬ R n v) (hz : ¬ Z n) {a b : α} (hb : ¬ Z b) (han : a ≠ n) (hbn : b ≠ n)
    (h1 : Con R Z a n) (h2 : Con R Z b n) : Con R (fun w => Z w ∨ w = n) a b := by
  obtain ⟨d, h⟩ := h1
  obtain ⟨k1, k2⟩ := reach_sink hs hz han h
  obtain rfl : d = false := k2 rfl
  obtain ⟨d', h'⟩ := h2.symm ac hb hz
  rcases h'.cases_head with q | ⟨t, m, h'⟩
  · exact absurd (congrArg Prod.fst q).symm hbn
  · cases m with
    | @up_pa _ p _ e =>
      have hpn : p ≠ n := fun q => hs n (q ▸ e)
      have := (reach_sink hs hz hpn h').1
      exact ⟨d', (k1.tail (.down_pa (AncZ.self (Or.inr rfl)) e)).trans this⟩
    | up_ch _ e => exact absurd e (hs _)

end sink

/-- The edges among the nodes of a list. -/
def Restr (G : α → α → Prop) (l : List α) (u v : α) : Prop := G u v ∧ u ∈ l ∧ v ∈ l

theorem Acyclic.sub {R' : α → α → Prop} (ac : Acyclic R) (h : ∀ a b, R' a b → R a b) : Acyclic R' :=
  fun x k => ac x (Relation.TransGen.mono h _ _ k)

/-- Ordered Markov property: in the list, latest node first, the parents of each node come later in the list, and given them the
node is d-separated in `R` from all others that come later. -/
def Ordered (R G : α → α → Prop) (l : List α) : Prop :=
  ∀ n l', (n :: l') <:+ l → n ∉ l' ∧ (∀ p, G p n → p ∈ l') ∧ ∀ v ∈ l', ¬ G v n → DSep R v n (fun w => G w n)

theorem Ordered.tail {n : α} {l : List α} (h : Ordered R G (n :: l)) : Ordered R G l :=
  fun m l' k => h m l' (k.trans (List.suffix_cons _ _))

theorem ordered_imap (acR : Acyclic R) (acG : Acyclic G) (l : List α) (h : Ordered R G l) :
    ∀ x ∈ l, ∀ y ∈ l, ∀ Z : α → Prop, (∀ z, Z z → z ∈ l) → ¬ Z x → ¬ Z y → DSep (Restr G l) x y Z → DSep R x y Z := by
  classical
  induction l with
  | nil => intro x hx; cases hx
  | cons n l ih =>
    have ih := ih h.tail
    obtain ⟨hn, hP, hL⟩ := h n l (List.suffix_refl _)
    have acS : Acyclic (Restr G (n :: l)) := acG.sub fun _ _ k => k.1
    have acl : Acyclic (Restr G l) := acG.sub fun _ _ k => k.1
    have sub : ∀ a b, Restr G l a b → Restr G (n :: l) a b :=
      fun a b k => ⟨k.1, List.mem_cons_of_mem _ k.2.1, List.mem_cons_of_mem _ k.2.2⟩
    have sink : ∀ v, ¬ Restr G (n :: l) n v := by
      rintro v ⟨k, _, hv⟩
      rcases List.mem_cons.1 hv with rfl | hv
      · exact acG.irrefl _ k
      · -- `v` comes earlier than `n` among the parents
        obtain ⟨s, t, rfl⟩ := List.append_of_mem hv
        have := (h.tail v t (List.suffix_append _ _)).2.1 n k
        exact hn (by simp [this])
    have down : ∀ x y Z, ¬ Z x → DSep (Restr G (n :: l)) x y Z → DSep (Restr G l) x y Z := by
      intro x y Z hx k
      by_contra q
      rw [← con_iff acl hx] at q
      exact (con_iff acS hx).1 (q.mono sub) k
    -- the sink at one end
    have last : ∀ x ∈ l, ∀ Z : α → Prop, (∀ z, Z z → z ∈ l) → ¬ Z x → DSep (Restr G (n :: l)) x n Z → DSep R x n Z := by
      intro x hx Z hZ hxZ k
      have hnZ : ¬ Z n := fun q => hn (hZ n q)
      have hxn : x ≠ n := fun q => hn (q ▸ hx)
      have hxP : ¬ G x n := fun q => not_dsep_of_adj hxn (Or.inl ⟨q, List.mem_cons_of_mem _ hx, by simp⟩) k
      have hp : ∀ p, G p n → ¬ Z p → DSep R x p Z := by
        intro p hpn hpZ
        refine ih x hx p (hP p hpn) Z hZ hxZ hpZ ?_
        by_contra q
        rw [← con_iff acl hxZ] at q
        obtain ⟨d, q⟩ := q.mono sub
        refine (con_iff acS hxZ).1 ⟨false, q.tail ?_⟩ k
        have e : Restr G (n :: l) p n := ⟨hpn, List.mem_cons_of_mem _ (hP p hpn), by simp⟩
        cases d with
        | true => exact .up_ch hpZ e
        | false => exact .down_ch hpZ e
      have s1 := dsep_swaps acR hxZ (l.filter (fun p => G p n ∧ ¬ Z p)) (by
        intro d hd
        simp only [List.mem_filter, decide_eq_true_eq] at hd
        exact ⟨hd.2.2, fun q => hxP (q ▸ hd.2.1), hp d hd.2.1 hd.2.2⟩) n (fun q => hn (List.mem_of_mem_filter q))
      have s2 := dsep_swaps (Z := fun w => G w n) acR (a := n) (acG.irrefl n) (l.filter (fun z => Z z ∧ ¬ G z n)) (by
        intro d hd
        simp only [List.mem_filter, decide_eq_true_eq] at hd
        exact ⟨hd.2.2, fun q => hnZ (q ▸ hd.2.1), (hL d hd.1 hd.2.2).symm⟩) x (fun q => by
          simp only [List.mem_filter, decide_eq_true_eq] at q
          exact hxZ q.2.1)
      rw [s1]
      refine (dsep_congr (fun w => ?_) x n).1 (s2.1 (hL x hx hxP).symm).symm
      simp only [List.mem_filter, decide_eq_true_eq]
      constructor
      · rintro (q | q)
        · by_cases hw : Z w
          · exact Or.inl hw
          · exact Or.inr ⟨hP w q, q, hw⟩
        · exact Or.inl q.2.1
      · rintro (q | q)
        · by_cases hw : G w n
          · exact Or.inl hw
          · exact Or.inr ⟨hZ w q, q, hw⟩
        · exact Or.inl q.2.1
    -- the sink not at an end
    have inner : ∀ x ∈ l, ∀ y ∈ l, ∀ Z : α → Prop, (∀ z, Z z → z ∈ n :: l) → ¬ Z x → ¬ Z y → DSep (Restr G (n :: l)) x y Z →
        DSep R x y Z := by
      intro x hx y hy Z hZ hxZ hyZ k
      have hxn : x ≠ n := fun q => hn (q ▸ hx)
      have hyn : y ≠ n := fun q => hn (q ▸ hy)
      by_cases hnZ : Z n
      · have hZ' : ∀ z, (Z z ∧ z ≠ n) → z ∈ l := fun z hz => (List.mem_cons.1 (hZ z hz.1)).resolve_left hz.2
        have hx' : ¬ (Z x ∧ x ≠ n) := fun q => hxZ q.1
        have hy' : ¬ (Z y ∧ y ≠ n) := fun q => hyZ q.1
        have hn' : ¬ (Z n ∧ n ≠ n) := fun q => q.2 rfl
        have heq : ∀ w, ((Z w ∧ w ≠ n) ∨ w = n) ↔ Z w := by
          intro w
          constructor
          · rintro (q | rfl)
            · exact q.1
            · exact hnZ
          · intro q
            by_cases hw : w = n
            · exact Or.inr hw
            · exact Or.inl ⟨q, hw⟩
        have k' : DSep (Restr G (n :: l)) x y (fun w => (Z w ∧ w ≠ n) ∨ w = n) := (dsep_congr heq x y).2 k
        have hx'' : ¬ ((Z x ∧ x ≠ n) ∨ x = n) := fun q => q.elim hx' hxn
        have k0 : DSep (Restr G (n :: l)) x y (fun w => Z w ∧ w ≠ n) := by
          by_contra q
          rw [← con_iff (Z := fun w => Z w ∧ w ≠ n) acS hx'] at q
          exact (con_iff (Z := fun w => (Z w ∧ w ≠ n) ∨ w = n) acS hx'').1 (con_sink sink hn' hxn q) k'
        have r0 := ih x hx y hy _ hZ' hx' hy' (down x y _ hx' k0)
        rw [← dsep_congr heq]
        by_cases hc : DSep (Restr G (n :: l)) x n (fun w => Z w ∧ w ≠ n)
        · exact (dsep_swap acR hx' hn' hxn (last x hx _ hZ' hx' hc)).1 r0
        · by_cases hc' : DSep (Restr G (n :: l)) y n (fun w => Z w ∧ w ≠ n)
          · exact ((dsep_swap acR hy' hn' hyn (last y hy _ hZ' hy' hc')).1 r0.symm).symm
          · rw [← con_iff (Z := fun w => Z w ∧ w ≠ n) acS hx'] at hc
            rw [← con_iff (Z := fun w => Z w ∧ w ≠ n) acS hy'] at hc'
            exact absurd k' ((con_iff (Z := fun w => (Z w ∧ w ≠ n) ∨ w = n) acS hx'').1 (con_join acS sink hn' hy' hxn hyn hc hc'))
      · exact ih x hx y hy Z (fun z hz => (List.mem_cons.1 (hZ z hz)).resolve_left (fun q => hnZ (q ▸ hz))) hxZ hyZ (down x y Z hxZ k)
    intro x hx y hy Z hZ hxZ hyZ k
    have hZl : ¬ Z n → ∀ z, Z z → z ∈ l := fun q z hz => (List.mem_cons.1 (hZ z hz)).resolve_left (fun q' => q (q' ▸ hz))
    rcases List.mem_cons.1 hx with rfl | hx'
    · rcases List.mem_cons.1 hy with rfl | hy
      · exact absurd k (not_dsep_self _)
      · exact (last y hy Z (hZl hxZ) hyZ k.symm).symm
    · rcases List.mem_cons.1 hy with rfl | hy
      · exact last x hx' Z (hZl hyZ) hxZ k
      · exact inner x hx' y hy Z hZ hxZ hyZ k

/-- Only the members of the conditioning set that have an edge matter. -/
theorem con_in {N : List α} (fin : ∀ a b, R a b → a ∈ N ∧ b ∈ N) (x y : α) : Con R Z x y ↔ Con R (fun w => Z w ∧ w ∈ N) x y := by
  constructor
  · rintro ⟨d, k⟩
    refine ⟨d, ?_⟩
    generalize (y, d) = s at k
    induction k with
    | refl => exact .refl
    | @tail s t _ m ih =>
      refine ih.tail ?_
      cases m with
      | up_pa hz e => exact .up_pa (fun k => hz k.1) e
      | up_ch hz e => exact .up_ch (fun k => hz k.1) e
      | down_ch hz e => exact .down_ch (fun k => hz k.1) e
      | @down_pa y p hz e =>
        refine .down_pa ?_ e
        obtain ⟨w, hw, hd⟩ := hz
        refine ⟨w, ⟨hw, ?_⟩, hd⟩
        rcases hd.cases_tail with rfl | ⟨c, _, e'⟩
        · exact (fin _ _ e).2
        · exact (fin _ _ e').2
  · rintro ⟨d, k⟩
    refine ⟨d, ?_⟩
    generalize (y, d) = s at k
    induction k with
    | refl => exact .refl
    | @tail s t _ m ih =>
      refine ih.tail ?_
      cases m with
      | up_pa hz e => exact .up_pa (fun k => hz ⟨k, (fin _ _ e).2⟩) e
      | up_ch hz e => exact .up_ch (fun k => hz ⟨k, (fin _ _ e).1⟩) e
      | down_ch hz e => exact .down_ch (fun k => hz ⟨k, (fin _ _ e).1⟩) e
      | @down_pa y p hz e => exact .down_pa (hz.mono (fun _ _ k => k) (fun _ k => k.1)) e

theorem dsep_in {N : List α} (ac : Acyclic R) (fin : ∀ a b, R a b → a ∈ N ∧ b ∈ N) {x y : α} (hx : ¬ Z x) :
    DSep R x y Z ↔ DSep R x y (fun w => Z w ∧ w ∈ N) := by
  rw [← not_iff_not, ← con_iff ac hx, ← con_iff (Z := fun w => Z w ∧ w ∈ N) ac (fun k => hx k.1)]
  exact con_in fin x y

/-- A node without edges is d-separated from the others. -/
theorem dsep_alone (ac : Acyclic R) {x y : α} (hx : ¬ Z x) (hne : x ≠ y) (h : ∀ v, ¬ Adj R x v) : DSep R x y Z := by
  by_contra hn
  rw [← con_iff ac hx] at hn
  obtain ⟨d, k⟩ := hn
  rcases k.cases_head with q | ⟨t, m, _⟩
  · exact hne (congrArg Prod.fst q)
  · cases m with
    | up_pa _ e => exact h _ (Or.inr e)
    | up_ch _ e => exact h _ (Or.inl e)

/-- The ordered Markov property gives an independence map. -/
theorem imap_of_ordered {N : List α} (acR : Acyclic R) (acG : Acyclic G) (finR : ∀ a b, R a b → a ∈ N ∧ b ∈ N)
    (finG : ∀ a b, G a b → a ∈ N ∧ b ∈ N) (h : Ordered R G N) : IMap R G := by
  intro x y Z hx hy k
  have hne : x ≠ y := by rintro rfl; exact not_dsep_self _ k
  by_cases hxN : x ∈ N
  · by_cases hyN : y ∈ N
    · rw [dsep_in acR finR hx]
      refine ordered_imap acR acG N h x hxN y hyN _ (fun z hz => hz.2) (fun q => hx q.1) (fun q => hy q.1) ?_
      have : Restr G N = G := by
        funext a b
        exact propext ⟨fun q => q.1, fun q => ⟨q, finG a b q⟩⟩
      rw [this]
      exact (dsep_in acG finG hx).1 k
    · exact (dsep_alone acR hy hne.symm (fun v q => hyN (q.elim (fun e => (finR _ _ e).1) (fun e => (finR _ _ e).2)))).symm
  · exact dsep_alone acR hx hne (fun v q => hxN (q.elim (fun e => (finR _ _ e).1) (fun e => (finR _ _ e).2)))

/-- An order of the nodes, latest first. -/
theorem exists_order (acG : Acyclic G) {N : List α} (fin : ∀ a b, G a b → a ∈ N ∧ b ∈ N) (m : Nat) :
    ∀ l : List α, l.length = m → l.Nodup → ∃ l', l'.Perm l ∧ ∀ n l'', (n :: l'') <:+ l' → n ∉ l'' ∧ ∀ p ∈ l, G p n → p ∈ l'' := by
  classical
  induction m with
  | zero =>
    intro l hl _
    rw [List.length_eq_zero_iff.1 hl]
    exact ⟨[], .refl _, fun n l'' k => by have := List.suffix_nil.1 k; cases this⟩
  | succ m ih =>
    intro l hl hnd
    have acr : Acyclic (fun u v => G v u) := fun u hu => acG u (Relation.transGen_swap.1 hu)
    obtain ⟨x, hx, hmin⟩ := Graph.exists_minimal (R := fun u v => G v u) N (fun u v k => (fin v u k).2) acr (fun u => u ∈ l)
      (List.exists_mem_of_length_pos (by omega))
    obtain ⟨l', p', q'⟩ := ih (l.erase x) (by rw [List.length_erase_of_mem hx]; omega) (hnd.erase x)
    refine ⟨x :: l', (p'.cons x).trans (List.perm_cons_erase hx).symm, ?_⟩
    intro n l'' k
    rcases List.suffix_cons_iff.1 k with k' | k'
    · obtain ⟨rfl, rfl⟩ := List.cons.inj k'
      refine ⟨fun q => (List.Nodup.not_mem_erase hnd) (p'.mem_iff.1 q), fun p hp e => p'.mem_iff.2 ?_⟩
      exact (List.mem_erase_of_ne (fun q => acG.irrefl _ (q ▸ e))).2 hp
    · obtain ⟨h1, h2⟩ := q' n l'' k'
      refine ⟨h1, fun p hp e => ?_⟩
      by_cases hpx : p = x
      · subst hpx
        have hnl : n ∈ l' := k'.subset (List.mem_cons_self ..)
        have : n ∈ l := List.mem_of_mem_erase (p'.mem_iff.1 hnl)
        exact absurd this (hmin n e)
      · exact h2 p ((List.mem_erase_of_ne hpx).2 hp) e

end Spec
end Cdmir
