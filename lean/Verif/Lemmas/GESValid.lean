import Verif.Lemmas.GESFit
import Verif.Props.CpdagExact

/-! Chickering's Theorems 15 and 17: a valid operator on a completed PDAG gives a graph that has a consistent extension, and
the change of score is the one at the node `j` only. -/

set_option linter.unusedSectionVars false

namespace Cdmir
namespace GES
open Graph Spec
variable {α : Type} [DecidableEq α] {K : Type} [Field K] [LinearOrder K] [IsStrictOrderedRing K] {g : Graph α} {G : α → α → Prop}

/-- A completed PDAG as GES keeps it: proof device. -/
structure Comp (G : α → α → Prop) (g : Graph α) : Prop where
  du : DU g
  ac : Acyclic G
  fin : ∀ a b, G a b → a ∈ g.nodeList ∧ b ∈ g.nodeList
  cp : IsCpdag G g

theorem Comp.closed (h : Comp G g) : Complete.Closed g.nodeList (Dir g) (Und g) := (h.cp.closed h.du.wf.nodup h.ac h.fin).1

theorem Comp.adj (h : Comp G g) (a b : α) : Complete.C (Dir g) (Und g) a b ↔ Adj G a b :=
  (h.cp.closed h.du.wf.nodup h.ac h.fin).2 a b

theorem Comp.conn (h : Comp G g) (a b : α) : Complete.C (Dir g) (Und g) a b ↔ Conn g a b := by
  have hw := h.du.wf
  constructor
  · rintro (k | k | k)
    · exact Dir.conn hw k
    · exact Conn.symm hw (Dir.conn hw k)
    · exact Und.conn hw k
  · exact h.du.du a b

/-- An orientation along an order that ends with the clique `K`. -/
theorem Comp.order (h : Comp G g) {K : List α} (hn : K.Nodup) (hK : ∀ a ∈ K, ∀ b ∈ K, a ≠ b → Und g a b)
    (hKN : ∀ a ∈ K, a ∈ g.nodeList) : ∃ l, (l ++ K).Nodup ∧ (∀ a, a ∈ l ++ K ↔ a ∈ g.nodeList) ∧
      Extends (Complete.Orient (Dir g) (Und g) (l ++ K)) g := by
  have cl := h.closed
  obtain ⟨l, p, hm⟩ := cl.order h.du.wf.nodup h.ac (fun a b k => (h.fin a b k).2) (fun a b => (h.adj a b).symm)
    (fun u w v hne k1 k2 k3 => (h.cp.dir u w).2 (fun D hD =>
      ((hD.vstruct u w v).2 ⟨hne, k1, k2, fun q => k3 ((h.adj _ _).2 q)⟩).2.1)) hn hK hKN
  obtain ⟨h1, h2, h3, h4⟩ := cl.orient_class p hm
  refine ⟨l, p.nodup, hm, h1, fun u v => ?_, h3, fun u w v hne k1 k2 k3 => ?_⟩
  · rw [h2, h.conn]
    exact ⟨fun k => ⟨h.du.ne k, k⟩, fun k => k.2⟩
  · exact h4 u w v hne k1 k2 (fun q => k3 ((h2 u v).2 q))

/-- Parents of the first node of the final clique. -/
theorem orient_head {l C : List α} {j : α} (hn : (l ++ j :: C).Nodup) (hm : ∀ a, a ∈ l ++ j :: C ↔ a ∈ g.nodeList) (hw : g.WF)
    (hC : ∀ x ∈ C, Und g x j) (x : α) :
    Complete.Orient (Dir g) (Und g) (l ++ j :: C) x j ↔ Dir g x j ∨ x ∈ C := by
  have jl : j ∉ l := fun k => (List.nodup_append.1 hn).2.2 j k j (by simp) rfl
  have ij : (l ++ j :: C).idxOf j = l.length := by
    rw [List.idxOf_append_of_notMem jl]; simp
  unfold Complete.Orient
  constructor
  · rintro (k | ⟨k1, k2⟩)
    · exact Or.inl k
    · right
      rcases List.mem_append.1 ((hm x).2 (Conn.mem hw (Und.conn hw k1)).1) with q | q
      · have := List.idxOf_lt_length_iff.2 q
        rw [List.idxOf_append_of_mem q, ij] at k2
        omega
      · rcases List.mem_cons.1 q with rfl | q
        · exact absurd k2 (lt_irrefl _)
        · exact q
  · rintro (k | k)
    · exact Or.inl k
    · refine Or.inr ⟨hC x k, ?_⟩
      have hx : x ∉ l := fun q => (List.nodup_append.1 hn).2.2 x q x (by simp [k]) rfl
      have hxj : j ≠ x := by
        rintro rfl
        have := (List.nodup_append.1 hn).2.1
        exact (List.nodup_cons.1 this).1 k
      rw [ij, List.idxOf_append_of_notMem hx, List.idxOf_cons_ne _ hxj]
      omega

/-- Edges from the final clique to other nodes. -/
theorem orient_out {l K : List α} (hn : (l ++ K).Nodup) (hm : ∀ a, a ∈ l ++ K ↔ a ∈ g.nodeList) (hw : g.WF) {a b : α}
    (ha : a ∈ K) (hb : b ∉ K) (hu : Und g a b) : Complete.Orient (Dir g) (Und g) (l ++ K) a b := by
  refine Or.inr ⟨hu, Complete.idxOf_final hn ?_ ha⟩
  rcases List.mem_append.1 ((hm b).2 (Conn.mem hw (Und.conn hw hu)).2) with q | q
  · exact q
  · exact absurd q hb

omit [DecidableEq α] in
/-- A directed path of an acyclic relation, as a list without repetitions. -/
theorem exists_path {R : α → α → Prop} (ac : Acyclic R) {a b : α} (h : Relation.TransGen R a b) :
    ∃ p : List α, p.Nodup ∧ p.head? = some a ∧ p.getLast? = some b ∧ (∀ x y, [x, y] <:+: p → R x y) ∧
      ∀ x ∈ p, x ≠ a → Relation.TransGen R a x := by
  have key : ∃ p : List α, p.IsChain R ∧ p.head? = some a ∧ p.getLast? = some b := by
    induction h with
    | @single b k => exact ⟨[a, b], by simpa using k, rfl, rfl⟩
    | @tail b c _ k ih =>
      obtain ⟨p, h1, h2, h3⟩ := ih
      refine ⟨p ++ [c], ?_, ?_, by simp⟩
      · rw [List.isChain_append]
        refine ⟨h1, by simp, ?_⟩
        intro x hx y hy
        rw [h3] at hx
        simp only [Option.mem_def, Option.some.injEq, List.head?_cons] at hx hy
        subst hx; subst hy; exact k
      · cases p with
        | nil => simp at h2
        | cons x t => simpa using h2
  obtain ⟨p, h1, h2, h3⟩ := key
  have pw : p.Pairwise (Relation.TransGen R) :=
    List.isChain_iff_pairwise.1 (h1.imp (fun _ _ k => Relation.TransGen.single k))
  refine ⟨p, pw.imp (fun {x y} k e => by subst e; exact ac _ k), h2, h3, ?_, ?_⟩
  · rintro x y ⟨s, t, e⟩
    rw [← e] at h1
    have := (List.isChain_append.1 (List.isChain_append.1 h1).1).2.1
    simpa using this
  · intro x hx hxa
    cases p with
    | nil => simp at hx
    | cons y t =>
      simp only [List.head?_cons, Option.some.injEq] at h2
      subst h2
      rcases List.mem_cons.1 hx with q | q
      · exact absurd q hxa
      · exact (List.pairwise_cons.1 pw).1 x q

theorem Comp.insert (h : Comp G g) {maxP : ℚ} {i j : α} {T : List α} (hv : ValidInsert g maxP i j T) {g1 : Graph α}
    (he : Eff g g1 (insD g i j T) (insU g j T)) :
    ∃ A B : α → α → Prop, Extends A g ∧ Extends B g1 ∧ (∀ x, A x j ↔ NA g i j x ∨ x ∈ T ∨ Dir g x j) ∧
      ∀ a b, B a b ↔ A a b ∨ (a = i ∧ b = j) := by
  have hw := h.du.wf
  have cl := h.closed
  have hTm : ∀ x ∈ T, x ∈ g.nodeList := fun x hx => (Conn.mem hw (Und.conn hw (hv.cand x hx).1)).1
  let C := union1d g (naList g i j) T
  have hCm : ∀ x, x ∈ C ↔ NA g i j x ∨ x ∈ T := fun x => mem_nat hw hTm x
  have hCj : ∀ x ∈ C, Und g x j := by
    intro x hx
    rcases (hCm x).1 hx with k | k
    · exact k.1
    · exact (hv.cand x k).1
  have hjC : j ∉ C := fun k => cl.irrefl _ (hCj j k)
  have hCC : ∀ a ∈ C, ∀ b ∈ C, a ≠ b → Und g a b := by
    intro a ha b hb hab
    rcases h.du.du _ _ (hv.clique a b ((hCm a).1 ha) ((hCm b).1 hb) hab) with k | k | k
    · exact absurd (hCj a ha) (cl.excl _ _ (cl.key k (hCj b hb)))
    · exact absurd (hCj b hb) (cl.excl _ _ (cl.key k (hCj a ha)))
    · exact k
  obtain ⟨l, hn, hm, hA⟩ := h.order (K := j :: C) (List.nodup_cons.2 ⟨hjC, union1d_nodup hw _ _⟩)
    (by
      intro a ha b hb hab
      rcases List.mem_cons.1 ha with rfl | ha <;> rcases List.mem_cons.1 hb with rfl | hb
      · exact absurd rfl hab
      · exact cl.symm _ _ (hCj b hb)
      · exact hCj a ha
      · exact hCC a ha b hb hab)
    (by
      intro a ha
      rcases List.mem_cons.1 ha with rfl | ha
      · exact hv.memj
      · exact ((mem_union1d g _ _ a).1 ha).1)
  set A := Complete.Orient (Dir g) (Und g) (l ++ j :: C) with hAdef
  have pj : ∀ x, A x j ↔ NA g i j x ∨ x ∈ T ∨ Dir g x j := by
    intro x
    rw [hAdef, orient_head hn hm hw hCj, hCm]
    tauto
  have semi : ∀ {a b}, A a b → Dir g a b ∨ Und g a b := by
    rintro a b (k | k)
    · exact Or.inl k
    · exact Or.inr k.1
  have nopath : ¬ Relation.TransGen A j i := by
    intro k
    obtain ⟨p, p1, p2, p3, p4, p5⟩ := exists_path hA.acyclic k
    obtain ⟨x, hx, hxi, hxC⟩ := hv.block p ⟨p1, p2, p3, fun a b q => semi (p4 a b q)⟩
    have hxj : x ≠ j := fun e => hjC (e ▸ (hCm x).2 hxC)
    exact hA.acyclic j ((p5 x hx hxj).tail ((pj x).2 (by tauto)))
  have nij : ¬ A i j := fun k => hv.apart ((hA.adj i j).1 (Or.inl k)).2
  have nji : ¬ A j i := fun k => nopath (.single k)
  refine ⟨A, fun a b => A a b ∨ (a = i ∧ b = j), hA, ⟨?_, ?_, ?_, ?_⟩, pj, fun a b => Iff.rfl⟩
  · -- acyclic
    have split : ∀ a b, Relation.TransGen (fun a b => A a b ∨ (a = i ∧ b = j)) a b → Relation.TransGen A a b ∨
        (Relation.ReflTransGen A a i ∧ Relation.ReflTransGen A j b) := by
      intro a b k
      induction k with
      | single k =>
        rcases k with k | ⟨rfl, rfl⟩
        · exact Or.inl (.single k)
        · exact Or.inr ⟨.refl, .refl⟩
      | tail _ k ih =>
        rcases k with k | ⟨rfl, rfl⟩
        · rcases ih with q | ⟨q1, q2⟩
          · exact Or.inl (q.tail k)
          · exact Or.inr ⟨q1, q2.tail k⟩
        · rcases ih with q | ⟨q1, q2⟩
          · exact Or.inr ⟨q.to_reflTransGen, .refl⟩
          · exact Or.inr ⟨q1, .refl⟩
    intro x k
    rcases split x x k with q | ⟨q1, q2⟩
    · exact hA.acyclic x q
    · have := q2.trans q1
      rcases Relation.reflTransGen_iff_eq_or_transGen.1 this with e | t
      · exact hv.ne e
      · exact nopath t
  · intro u v
    rw [ins_conn h.du (fun t ht => (hv.cand t ht).1) he]
    have := hA.adj u v
    unfold Adj at this ⊢
    have hne := hv.ne
    unfold GES.Same
    grind
  · intro u v k
    rw [he.dir] at k
    rcases k with k | ⟨rfl, rfl | k⟩
    · exact Or.inl (hA.dir _ _ k)
    · exact Or.inr ⟨rfl, rfl⟩
    · exact Or.inl ((pj u).2 (Or.inr (Or.inl k)))
  · intro u w v hne k1 k2 k3
    rw [he.dir, he.dir]
    unfold insD
    have nadj : ¬ Adj A u v := fun q => k3 (q.imp Or.inl Or.inl)
    have par : ∀ x, A x j → ¬ Adj (fun a b => A a b ∨ (a = i ∧ b = j)) i x → Dir g x j ∨ x ∈ T := by
      intro x hx hnx
      rcases (pj x).1 hx with q | q | q
      · exact absurd (((hA.adj i x).2 ⟨h.du.ne q.2, q.2⟩).imp Or.inl Or.inl) hnx
      · exact Or.inr q
      · exact Or.inl q
    rcases k1 with k1 | ⟨e1, e2⟩ <;> rcases k2 with k2 | ⟨e3, e4⟩
    · have := hA.collider u w v hne k1 k2 nadj
      exact ⟨Or.inl this.1, Or.inl this.2⟩
    · subst e3; subst e4
      refine ⟨?_, Or.inr ⟨rfl, Or.inl rfl⟩⟩
      rcases par u k1 (fun q => k3 q.symm) with q | q
      · exact Or.inl q
      · exact Or.inr ⟨rfl, Or.inr q⟩
    · subst e1; subst e2
      refine ⟨Or.inr ⟨rfl, Or.inl rfl⟩, ?_⟩
      rcases par v k2 k3 with q | q
      · exact Or.inl q
      · exact Or.inr ⟨rfl, Or.inr q⟩
    · exact absurd (e1.trans e3.symm) hne

theorem Comp.delete (h : Comp G g) {i j : α} {H : List α} (hv : ValidDelete g i j H) {g1 : Graph α}
    (he : Eff g g1 (delD g i j H) (delU g i j H)) :
    ∃ A B : α → α → Prop, Extends A g ∧ Extends B g1 ∧ A i j ∧
      (∀ x, A x j ↔ ((NA g i j x ∧ x ∉ H) ∨ Dir g x j) ∨ x = i) ∧ ∀ a b, B a b ↔ A a b ∧ ¬ (a = i ∧ b = j) := by
  have hw := h.du.wf
  have cl := h.closed
  let C0 := (naList g i j).filter (fun x => x ∉ H)
  have hC0 : ∀ x, x ∈ C0 ↔ NA g i j x ∧ x ∉ H := by
    intro x
    simp only [C0, List.mem_filter, mem_naList hw, decide_eq_true_eq]
  have nC0 : C0.Nodup := (hw.nodup.filter _).filter _
  have hcon : Conn g i j := hv.edge.elim (fun k => Dir.conn hw k) (fun k => Und.conn hw k)
  have hij : i ≠ j := h.du.ne hcon
  have hmem := Conn.mem hw hcon
  -- the edge from i to the neighbours of j
  have toNA : ∀ x, NA g i j x → (Dir g i j → Dir g i x) ∧ (Und g i j → Und g i x) := by
    intro x hx
    refine ⟨fun k => cl.key k (cl.symm _ _ hx.1), fun k => ?_⟩
    rcases h.du.du _ _ hx.2 with q | q | q
    · exact absurd k (cl.excl _ _ (cl.key q hx.1))
    · exact absurd hx.1 (cl.excl _ _ (cl.key q k))
    · exact q
  have hCC : ∀ a ∈ C0, ∀ b ∈ C0, a ≠ b → Und g a b := by
    intro a ha b hb hab
    have ha' := (hC0 a).1 ha
    have hb' := (hC0 b).1 hb
    rcases h.du.du _ _ (hv.clique a b ha' hb' hab) with k | k | k
    · exact absurd ha'.1.1 (cl.excl _ _ (cl.key k hb'.1.1))
    · exact absurd hb'.1.1 (cl.excl _ _ (cl.key k ha'.1.1))
    · exact k
  -- the clique to eliminate last
  obtain ⟨C, hCn, hCm, hCu⟩ : ∃ C : List α, (j :: C).Nodup ∧ (∀ x, x ∈ C ↔ x ∈ C0 ∨ (x = i ∧ Und g i j)) ∧
      ∀ a ∈ j :: C, ∀ b ∈ j :: C, a ≠ b → Und g a b := by
    have jC0 : j ∉ C0 := fun k => cl.irrefl _ ((hC0 j).1 k).1.1
    have iC0 : i ∉ C0 := fun k => h.du.ne ((hC0 i).1 k).1.2 rfl
    have hj0 : ∀ x ∈ C0, Und g x j := fun x hx => ((hC0 x).1 hx).1.1
    by_cases hu : Und g i j
    · refine ⟨i :: C0, ?_, fun x => ?_, ?_⟩
      · simp only [List.nodup_cons, List.mem_cons, not_or]
        exact ⟨⟨hij.symm, jC0⟩, iC0, nC0⟩
      · simp only [List.mem_cons, hu, and_true]; tauto
      · have hi0 : ∀ x ∈ C0, Und g i x := fun x hx => (toNA x ((hC0 x).1 hx).1).2 hu
        intro a ha b hb hab
        simp only [List.mem_cons] at ha hb
        rcases ha with rfl | rfl | ha <;> rcases hb with rfl | rfl | hb
        · exact absurd rfl hab
        · exact cl.symm _ _ hu
        · exact cl.symm _ _ (hj0 b hb)
        · exact hu
        · exact absurd rfl hab
        · exact hi0 b hb
        · exact hj0 a ha
        · exact cl.symm _ _ (hi0 a ha)
        · exact hCC a ha b hb hab
    · refine ⟨C0, List.nodup_cons.2 ⟨jC0, nC0⟩, fun x => by simp [hu], ?_⟩
      intro a ha b hb hab
      rcases List.mem_cons.1 ha with rfl | ha <;> rcases List.mem_cons.1 hb with rfl | hb
      · exact absurd rfl hab
      · exact cl.symm _ _ (hj0 b hb)
      · exact hj0 a ha
      · exact hCC a ha b hb hab
  have jC : j ∉ C := (List.nodup_cons.1 hCn).1
  have hCj : ∀ x ∈ C, Und g x j := fun x hx => hCu x (by simp [hx]) j (by simp) (fun e => jC (e ▸ hx))
  obtain ⟨l, hn, hm, hA⟩ := h.order (K := j :: C) hCn hCu (by
    intro a ha
    rcases List.mem_cons.1 ha with rfl | ha
    · exact hmem.2
    · exact (Conn.mem hw (Und.conn hw (hCj a ha))).1)
  have pj := orient_head hn hm hw hCj
  have out := fun {a b : α} => orient_out (a := a) (b := b) hn hm hw
  have semi : ∀ {a b}, Complete.Orient (Dir g) (Und g) (l ++ j :: C) a b → Dir g a b ∨ Und g a b := by
    rintro a b (k | k)
    · exact Or.inl k
    · exact Or.inr k.1
  generalize hAdef : Complete.Orient (Dir g) (Und g) (l ++ j :: C) = A at *
  have aij : A i j := by
    rw [pj, hCm]
    rcases hv.edge with k | k
    · exact Or.inl k
    · exact Or.inr (Or.inr ⟨rfl, k⟩)
  have nji : ¬ A j i := hA.acyclic.asymm _ _ aij
  have hH : ∀ x ∈ H, x ∉ j :: C := by
    intro x hx k
    have hna := hv.cand x hx
    rcases List.mem_cons.1 k with rfl | k
    · exact cl.irrefl _ hna.1
    · rcases (hCm x).1 k with q | ⟨rfl, _⟩
      · exact ((hC0 x).1 q).2 hx
      · exact h.du.ne hna.2 rfl
  have aiH : ∀ x ∈ H, A i x := by
    intro x hx
    rcases hv.edge with k | k
    · exact hA.dir _ _ ((toNA x (hv.cand x hx)).1 k)
    · exact out (by simp [(hCm i).2 (Or.inr ⟨rfl, k⟩)]) (hH x hx) ((toNA x (hv.cand x hx)).2 k)
  have ajH : ∀ x ∈ H, A j x := fun x hx => out (by simp) (hH x hx) (cl.symm _ _ (hv.cand x hx).1)
  have hHi : i ∉ H := fun k => h.du.ne (hv.cand i k).2 rfl
  have hHj : j ∉ H := fun k => cl.irrefl _ (hv.cand j k).1
  refine ⟨A, fun a b => A a b ∧ ¬ (a = i ∧ b = j), hA, ⟨?_, ?_, ?_, ?_⟩, aij, fun x => ?_, fun a b => Iff.rfl⟩
  · exact fun x k => hA.acyclic x (Relation.TransGen.mono (fun _ _ q => q.1) _ _ k)
  · intro u v
    rw [del_conn h.du hv.cand he]
    have := hA.adj u v
    unfold Adj at this ⊢
    unfold GES.Same
    grind
  · intro u v k
    rw [he.dir] at k
    rcases k with ⟨k1, k2, _⟩ | ⟨k1, rfl | rfl⟩
    · exact ⟨hA.dir _ _ k1, fun q => k2 (Or.inl q)⟩
    · exact ⟨aiH v k1, fun q => hHj (q.2 ▸ k1)⟩
    · exact ⟨ajH v k1, fun q => hij q.1.symm⟩
  · intro u w v hne k1 k2 k3
    rw [he.dir, he.dir]
    unfold delD
    have fix : ∀ a b, A a b → ¬ (a = i ∧ b = j) → Dir g a b → ¬ GES.Same i j a b ∧ ¬ (a ∈ H ∧ b = i) := by
      intro a b ha hnot hd
      refine ⟨?_, ?_⟩
      · rintro (q | ⟨rfl, rfl⟩)
        · exact hnot q
        · exact nji ha
      · rintro ⟨q, rfl⟩
        exact hA.acyclic.asymm _ _ ha (aiH a q)
    have both : ∀ w, A i w → ¬ (i = i ∧ w = j) → A j w → w ∈ H ∨ (Dir g i w ∧ Dir g j w) := by
      intro w k1 k1' k2
      have kw : w ≠ i := by rintro rfl; exact hA.acyclic _ (.single k1)
      rcases semi k2 with q | q
      · right
        refine ⟨?_, q⟩
        rcases semi k1 with z | z
        · exact z
        · exfalso
          rcases hv.edge with e | e
          · exact cl.r2 i j w e q z
          · exact cl.excl _ _ (cl.key q (cl.symm _ _ z)) (cl.symm _ _ e)
      · left
        by_contra hwH
        have hwC : w ∈ C := (hCm w).2 (Or.inl ((hC0 w).2 ⟨⟨cl.symm _ _ q, ((hA.adj i w).1 (Or.inl k1)).2⟩, hwH⟩))
        exact hA.acyclic.asymm _ _ k2 ((pj w).2 (Or.inr hwC))
    by_cases hna : Adj A u v
    · -- the pair {i, j} itself
      have hs : (u = i ∧ v = j) ∨ (u = j ∧ v = i) := by
        unfold Adj at k3 hna
        have := nji
        grind
      rcases hs with ⟨rfl, rfl⟩ | ⟨rfl, rfl⟩
      · rcases both w k1.1 k1.2 k2.1 with q | ⟨q1, q2⟩
        · exact ⟨Or.inr ⟨q, Or.inl rfl⟩, Or.inr ⟨q, Or.inr rfl⟩⟩
        · exact ⟨Or.inl ⟨q1, fix _ _ k1.1 k1.2 q1⟩, Or.inl ⟨q2, fix _ _ k2.1 k2.2 q2⟩⟩
      · rcases both w k2.1 k2.2 k1.1 with q | ⟨q1, q2⟩
        · exact ⟨Or.inr ⟨q, Or.inr rfl⟩, Or.inr ⟨q, Or.inl rfl⟩⟩
        · exact ⟨Or.inl ⟨q2, fix _ _ k1.1 k1.2 q2⟩, Or.inl ⟨q1, fix _ _ k2.1 k2.2 q1⟩⟩
    · have := hA.collider u w v hne k1.1 k2.1 hna
      exact ⟨Or.inl ⟨this.1, fix _ _ k1.1 k1.2 this.1⟩, Or.inl ⟨this.2, fix _ _ k2.1 k2.2 this.2⟩⟩
  · rw [pj, hCm, hC0]
    constructor
    · rintro (k | k | k)
      · exact Or.inl (Or.inr k)
      · exact Or.inl (Or.inl k)
      · exact Or.inr k.1
    · rintro ((k | k) | rfl)
      · exact Or.inr (Or.inl k)
      · exact Or.inl k
      · rcases hv.edge with q | q
        · exact Or.inl q
        · exact Or.inr (Or.inr ⟨rfl, q⟩)

/-! ### every change of one edge is an operator -/

omit [DecidableEq α] in
theorem chain_trans {R : α → α → Prop} : ∀ {p : List α} {a b : α}, (a :: p).IsChain R → (a :: p).getLast? = some b →
    Relation.ReflTransGen R a b
  | [], a, b, _, h2 => by
    simp only [List.getLast?_singleton, Option.some.injEq] at h2
    subst h2; exact .refl
  | c :: p, a, b, h1, h2 => by
    rw [List.isChain_cons_cons] at h1
    rw [List.getLast?_cons_cons] at h2
    exact .head h1.1 (chain_trans h1.2 h2)

/-- A walk along semi-directed edges from `j` to `i` all of whose undirected neighbours of `j` are children of `j` in `D` gives
a directed path in `D`. -/
theorem Comp.semi_reach (h : Comp G g) {D : α → α → Prop} (hD : Extends D g) {i j : α} {p : List α}
    (h1 : (j :: p).IsChain (fun a b => Dir g a b ∨ Und g a b)) (h2 : (j :: p).getLast? = some i)
    (h3 : ∀ x ∈ p, Und g j x → D j x) : Relation.ReflTransGen D j i := by
  have cl := h.closed
  let P : Nat → Prop := fun n => ∃ p : List α, p.length = n ∧ (j :: p).IsChain (fun a b => Dir g a b ∨ Und g a b) ∧
    (j :: p).getLast? = some i ∧ ∀ x ∈ p, Und g j x → D j x
  obtain ⟨n, ⟨p, e, h1, h2, h3⟩, hmin⟩ : ∃ n, P n ∧ ∀ m < n, ¬ P m := by
    classical
    have ex : ∃ n, P n := ⟨_, p, rfl, h1, h2, h3⟩
    exact ⟨Nat.find ex, Nat.find_spec ex, fun m hm => Nat.find_min ex hm⟩
  refine chain_trans ?_ h2
  have cut : ∀ s a b c t, j :: p = s ++ a :: b :: c :: t → ¬ (Dir g a c ∨ Und g a c) := by
    intro s a b c t e' k
    have hch : (s ++ a :: c :: t).IsChain (fun a b => Dir g a b ∨ Und g a b) := by
      rw [e'] at h1
      rw [List.isChain_append] at h1 ⊢
      simp only [List.isChain_cons_cons] at h1 ⊢
      exact ⟨h1.1, ⟨k, h1.2.1.2.2⟩, by simpa using h1.2.2⟩
    have hlast : (s ++ a :: c :: t).getLast? = some i := by
      rw [← h2, e']
      simp [List.getLast?_append]
    cases s with
    | nil =>
      simp only [List.nil_append, List.cons.injEq] at e'
      obtain ⟨rfl, rfl⟩ := e'
      exact hmin (c :: t).length (by simp at e ⊢; omega) ⟨c :: t, rfl, hch, hlast, fun x hx => h3 x (List.mem_cons_of_mem _ hx)⟩
    | cons y s =>
      simp only [List.cons_append, List.cons.injEq] at e'
      obtain ⟨rfl, rfl⟩ := e'
      refine hmin (s ++ a :: c :: t).length (by simp at e ⊢; omega) ⟨_, rfl, hch, hlast, fun x hx => h3 x ?_⟩
      simp only [List.mem_append, List.mem_cons] at hx ⊢
      tauto
  have back : ∀ s a t, j :: p = s ++ a :: t → (s ++ [a]).IsChain D := by
    intro s
    induction s using List.reverseRecOn with
    | nil => intro a t _; simp
    | append_singleton s z ih =>
      intro b t e'
      have e2 : j :: p = s ++ z :: b :: t := by rw [e']; simp
      have hs := ih z (b :: t) e2
      have hzb : Dir g z b ∨ Und g z b := by
        rw [e2] at h1
        exact (List.isChain_cons_cons.1 (List.isChain_append.1 h1).2.1).1
      rw [List.append_assoc, List.singleton_append]
      have hgoal : D z b := by
        rcases hzb with k | k
        · exact hD.dir _ _ k
        rcases List.eq_nil_or_concat s with rfl | ⟨s', y, rfl⟩
        · simp only [List.nil_append, List.cons.injEq] at e2
          obtain ⟨rfl, rfl⟩ := e2
          exact h3 b (by simp) k
        · rw [List.concat_eq_append] at e2 hs
          have hyz : D y z := by
            simp only [List.append_assoc, List.singleton_append] at hs
            exact (List.isChain_cons_cons.1 (List.isChain_append.1 hs).2.1).1
          have e3 : j :: p = s' ++ y :: z :: b :: t := by rw [e2]; simp
          have hsyz : Dir g y z ∨ Und g y z := by
            rw [e3] at h1
            exact (List.isChain_cons_cons.1 (List.isChain_append.1 h1).2.1).1
          have nyb := cut _ _ _ _ _ e3
          by_contra hzb
          have hbz : D b z := ((hD.adj z b).2 ⟨h.du.ne (Und.conn h.du.wf k), Und.conn h.du.wf k⟩).resolve_left hzb
          by_cases eyb : y = b
          · subst eyb
            -- the walk returns to `y`
            cases t with
            | nil =>
              have hlast : (s' ++ [y]).getLast? = some i := by rw [← h2, e3]; simp
              have hch : (s' ++ [y]).IsChain (fun a b => Dir g a b ∨ Und g a b) := by
                rw [e3] at h1
                rw [List.isChain_append] at h1 ⊢
                exact ⟨h1.1, by simp, by simpa using h1.2.2⟩
              cases s' with
              | nil =>
                simp only [List.nil_append, List.cons.injEq] at e3
                obtain ⟨rfl, rfl⟩ := e3
                exact hmin 0 (by simp at e; omega) ⟨[], rfl, hch, hlast, by simp⟩
              | cons q s' =>
                simp only [List.cons_append, List.cons.injEq] at e3
                obtain ⟨rfl, rfl⟩ := e3
                refine hmin (s' ++ [y]).length (by simp at e ⊢; omega) ⟨_, rfl, hch, hlast, fun x hx => h3 x ?_⟩
                simp only [List.mem_append, List.mem_cons] at hx ⊢
                tauto
            | cons c t =>
              have hyc : Dir g y c ∨ Und g y c := by
                have h1' := h1
                rw [e3] at h1'
                have := (List.isChain_append.1 h1').2.1
                simp only [List.isChain_cons_cons] at this
                exact this.2.2.1
              have hch : (s' ++ y :: c :: t).IsChain (fun a b => Dir g a b ∨ Und g a b) := by
                rw [e3] at h1
                rw [List.isChain_append] at h1 ⊢
                simp only [List.isChain_cons_cons] at h1 ⊢
                exact ⟨h1.1, h1.2.1.2.2, by simpa using h1.2.2⟩
              have hlast : (s' ++ y :: c :: t).getLast? = some i := by rw [← h2, e3]; simp [List.getLast?_append]
              cases s' with
              | nil =>
                simp only [List.nil_append, List.cons.injEq] at e3
                obtain ⟨rfl, rfl⟩ := e3
                exact hmin (c :: t).length (by simp at e ⊢; omega) ⟨_, rfl, hch, hlast, fun x hx => h3 x
                  (List.mem_cons_of_mem _ (List.mem_cons_of_mem _ hx))⟩
              | cons q s' =>
                simp only [List.cons_append, List.cons.injEq] at e3
                obtain ⟨rfl, rfl⟩ := e3
                refine hmin (s' ++ y :: c :: t).length (by simp at e ⊢; omega) ⟨_, rfl, hch, hlast, fun x hx => h3 x ?_⟩
                simp only [List.mem_append, List.mem_cons] at hx ⊢
                tauto
          · by_cases hadj : Adj D y b
            · rcases h.du.du _ _ ((hD.adj y b).1 hadj).2 with q | q | q
              · exact nyb (Or.inl q)
              · rcases hsyz with w | w
                · have := cl.key w k
                  exact nyb (Or.inl this)
                · exact cl.excl _ _ (cl.key q w) (cl.symm _ _ k)
              · exact nyb (Or.inr q)
            · have := hD.collider y z b eyb hyz hbz hadj
              exact cl.excl _ _ this.2 (cl.symm _ _ k)
      rw [List.isChain_append]
      rw [List.isChain_append] at hs
      exact ⟨hs.1, by simpa using hgoal, by simpa using hs.2.2⟩
  rcases List.eq_nil_or_concat (j :: p) with e' | ⟨s, a, e'⟩
  · simp at e'
  · rw [List.concat_eq_append] at e'
    rw [e']
    exact back s a [] e'

theorem inClass_extends (h : Comp G g) {D : α → α → Prop} (hD : InClass G D) : Extends D g := by
  have hG : ∀ u v, Adj G u v ↔ u ≠ v ∧ Conn g u v := fun u v => by
    rw [← h.adj, h.conn]
    exact ⟨fun k => ⟨h.du.ne k, k⟩, fun k => k.2⟩
  refine ⟨hD.acyclic, fun u v => by rw [hD.adj, hG], fun u v k => (h.cp.dir u v).1 k D hD, fun u w v h1 h2 h3 h4 => ?_⟩
  have vs : VStruct G u w v := (hD.vstruct _ _ _).1 ⟨h1, h2, h3, h4⟩
  exact ⟨(h.cp.dir u w).2 (fun D hD => ((hD.vstruct _ _ _).2 vs).2.1),
    (h.cp.dir v w).2 (fun D hD => ((hD.vstruct _ _ _).2 vs).2.2.1)⟩

/-- Adding an edge to a member of the class is a valid insertion. -/
theorem Comp.insert_complete (h : Comp G g) {D : α → α → Prop} (hD : InClass G D) {i j : α} (hi : i ∈ g.nodeList)
    (hj : j ∈ g.nodeList) (hna : ¬ Adj D i j) (hac : Acyclic (fun a b => D a b ∨ (a = i ∧ b = j))) {maxP : ℚ}
    (hmax : ∀ l : List α, l.Nodup → (∀ p ∈ l, Dir g p j) → (l.length : ℚ) ≤ maxP) :
    ∃ T : List α, ValidInsert g maxP i j T ∧ (∀ x, D x j ↔ NA g i j x ∨ x ∈ T ∨ Dir g x j) ∧
      ∀ g1, Eff g g1 (insD g i j T) (insU g j T) → Extends (fun a b => D a b ∨ (a = i ∧ b = j)) g1 := by
  classical
  have hw := h.du.wf
  have cl := h.closed
  have hE := inClass_extends h hD
  have hij : i ≠ j := by rintro rfl; exact hac i (.single (Or.inr ⟨rfl, rfl⟩))
  have apart : ¬ Conn g i j := fun k => hna ((hE.adj i j).2 ⟨hij, k⟩)
  have hne : ∀ {a b}, Und g a b → a ≠ b := fun k => h.du.ne (Und.conn hw k)
  have tot : ∀ {a b}, Conn g a b → D a b ∨ D b a := fun k => (hE.adj _ _).2 ⟨h.du.ne k, k⟩
  have mono : ∀ {a b}, D a b → (fun a b => D a b ∨ (a = i ∧ b = j)) a b := fun k => Or.inl k
  -- every neighbour of `j` adjacent to `i` is a parent of `j`
  have na_par : ∀ x, NA g i j x → D x j := by
    intro x hx
    by_contra hxj
    have hjx : D j x := (tot (Und.conn hw hx.1)).resolve_left hxj
    rcases tot hx.2 with k | k
    · have := hE.collider i x j hij k hjx hna
      exact cl.excl _ _ this.2 (cl.symm _ _ hx.1)
    · exact hac i (.tail (.tail (.single (Or.inr ⟨rfl, rfl⟩)) (Or.inl hjx)) (Or.inl k))
  let T := g.nodeList.filter (fun x => decide (Und g x j ∧ ¬ Conn g i x ∧ D x j))
  have hT : ∀ x, x ∈ T ↔ Und g x j ∧ ¬ Conn g i x ∧ D x j := by
    intro x
    simp only [T, List.mem_filter, decide_eq_true_eq, and_iff_right_iff_imp]
    exact fun k => (Conn.mem hw (Und.conn hw k.1)).1
  have nat : ∀ x, NA g i j x ∨ x ∈ T ↔ Und g x j ∧ D x j := by
    intro x
    rw [hT]
    constructor
    · rintro (k | k)
      · exact ⟨k.1, na_par x k⟩
      · exact ⟨k.1, k.2.2⟩
    · intro k
      by_cases c : Conn g i x
      · exact Or.inl ⟨k.1, c⟩
      · exact Or.inr ⟨k.1, c, k.2⟩
  refine ⟨T, ⟨hi, hj, hij, apart, hmax, fun t ht => ⟨((hT t).1 ht).1, ((hT t).1 ht).2.1⟩, ?_, ?_⟩, fun x => ?_, fun g1 he => ?_⟩
  · intro a b ha hb hab
    rw [nat] at ha hb
    by_contra k
    have := hE.collider a j b hab ha.2 hb.2 (fun q => k ((hE.adj _ _).1 q).2)
    exact cl.excl _ _ this.1 ha.1
  · intro p hp
    obtain ⟨p1, p2, p3, p4⟩ := hp
    by_contra hno
    push Not at hno
    cases p with
    | nil => simp at p2
    | cons y p =>
      simp only [List.head?_cons, Option.some.injEq] at p2
      subst p2
      have ch : (y :: p).IsChain (fun a b => Dir g a b ∨ Und g a b) := by
        rw [List.isChain_iff_getElem]
        intro n hn
        exact p4 _ _ ⟨(y :: p).take n, (y :: p).drop (n + 2), by
          have hn' : n < (y :: p).length := by omega
          conv_rhs => rw [← List.take_append_drop n (y :: p)]
          rw [List.append_assoc, List.drop_eq_getElem_cons hn', List.drop_eq_getElem_cons hn]
          simp⟩
      have hr := h.semi_reach hE ch p3 (by
        intro x hx k
        by_contra hn
        have hxy : D x y := (tot (Und.conn hw k)).resolve_left hn
        have hxi : x ≠ i := by rintro rfl; exact apart (Conn.symm hw (Und.conn hw k))
        have := hno x (List.mem_cons_of_mem _ hx) hxi
        have q := (nat x).2 ⟨cl.symm _ _ k, hxy⟩
        tauto)
      rcases Relation.reflTransGen_iff_eq_or_transGen.1 hr with e | t
      · exact hij e
      · exact hac y ((Relation.TransGen.mono (fun _ _ q => Or.inl q) _ _ t).tail (Or.inr ⟨rfl, rfl⟩))
  · rw [← or_assoc, nat]
    constructor
    · intro k
      rcases h.du.du _ _ ((hE.adj x j).1 (Or.inl k)).2 with q | q | q
      · exact Or.inr q
      · exact absurd (hE.dir _ _ q) (hD.acyclic.asymm _ _ k)
      · exact Or.inl ⟨q, k⟩
    · rintro (k | k)
      · exact k.2
      · exact hE.dir _ _ k
  · refine ⟨hac, fun u v => ?_, fun u v k => ?_, fun u w v hne k1 k2 k3 => ?_⟩
    · rw [ins_conn h.du (fun t ht => ((hT t).1 ht).1) he]
      have := hE.adj u v
      unfold Adj at this ⊢
      unfold GES.Same
      grind
    · rw [he.dir] at k
      rcases k with k | ⟨rfl, rfl | k⟩
      · exact Or.inl (hE.dir _ _ k)
      · exact Or.inr ⟨rfl, rfl⟩
      · exact Or.inl ((hT u).1 k).2.2
    · rw [he.dir, he.dir]
      unfold insD
      have nadj : ¬ Adj D u v := fun q => k3 (q.imp Or.inl Or.inl)
      have par : ∀ x, D x j → x ≠ i → ¬ Adj (fun a b => D a b ∨ (a = i ∧ b = j)) i x → Dir g x j ∨ x ∈ T := by
        intro x hx hxi hnx
        rcases h.du.du _ _ ((hE.adj x j).1 (Or.inl hx)).2 with q | q | q
        · exact Or.inl q
        · exact absurd (hE.dir _ _ q) (hD.acyclic.asymm _ _ hx)
        · exact Or.inr ((hT x).2 ⟨q, fun c => hnx ((tot c).imp Or.inl Or.inl), hx⟩)
      rcases k1 with k1 | ⟨e1, e2⟩ <;> rcases k2 with k2 | ⟨e3, e4⟩
      · have := hE.collider u w v hne k1 k2 nadj
        exact ⟨Or.inl this.1, Or.inl this.2⟩
      · subst e3; subst e4
        refine ⟨?_, Or.inr ⟨rfl, Or.inl rfl⟩⟩
        rcases par u k1 hne (fun q => k3 q.symm) with q | q
        · exact Or.inl q
        · exact Or.inr ⟨rfl, Or.inr q⟩
      · subst e1; subst e2
        refine ⟨Or.inr ⟨rfl, Or.inl rfl⟩, ?_⟩
        rcases par v k2 hne.symm k3 with q | q
        · exact Or.inl q
        · exact Or.inr ⟨rfl, Or.inr q⟩
      · exact absurd (e1.trans e3.symm) hne

/-- Removing an edge from a member of the class is a valid deletion. -/
theorem Comp.delete_complete (h : Comp G g) {D : α → α → Prop} (hD : InClass G D) {i j : α} (hij : D i j) :
    ∃ H : List α, ValidDelete g i j H ∧ (∀ x, D x j ↔ ((NA g i j x ∧ x ∉ H) ∨ Dir g x j) ∨ x = i) ∧
      ∀ g1, Eff g g1 (delD g i j H) (delU g i j H) → Extends (fun a b => D a b ∧ ¬ (a = i ∧ b = j)) g1 := by
  classical
  have hw := h.du.wf
  have cl := h.closed
  have hE := inClass_extends h hD
  have asy := hD.acyclic.asymm
  have tot : ∀ {a b}, Conn g a b → D a b ∨ D b a := fun k => (hE.adj _ _).2 ⟨h.du.ne k, k⟩
  have semi : ∀ {a b}, D a b → Dir g a b ∨ Und g a b := by
    intro a b k
    rcases h.du.du _ _ ((hE.adj a b).1 (Or.inl k)).2 with q | q | q
    · exact Or.inl q
    · exact absurd (hE.dir _ _ q) (asy _ _ k)
    · exact Or.inr q
  have nij : i ≠ j := by rintro rfl; exact hD.acyclic _ (.single hij)
  let H := g.nodeList.filter (fun x => decide (NA g i j x ∧ D j x))
  have hH : ∀ x, x ∈ H ↔ NA g i j x ∧ D j x := by
    intro x
    simp only [H, List.mem_filter, decide_eq_true_eq, and_iff_right_iff_imp]
    exact fun k => (Conn.mem hw (Und.conn hw k.1.1)).1
  have naH : ∀ x, (NA g i j x ∧ x ∉ H) ↔ NA g i j x ∧ D x j := by
    intro x
    rw [hH]
    constructor
    · rintro ⟨k, q⟩
      exact ⟨k, (tot (Und.conn hw k.1)).resolve_right (fun z => q ⟨k, z⟩)⟩
    · rintro ⟨k, q⟩
      exact ⟨k, fun z => asy _ _ q z.2⟩
  have iH : ∀ x, x ∈ H → D i x := by
    intro x hx
    rw [hH] at hx
    rcases tot hx.1.2 with k | k
    · exact k
    · exact absurd (.tail (.tail (.single hij) hx.2) k) (hD.acyclic i)
  have hHi : i ∉ H := fun k => h.du.ne ((hH i).1 k).1.2 rfl
  have hHj : j ∉ H := fun k => cl.irrefl _ ((hH j).1 k).1.1
  refine ⟨H, ⟨semi hij, fun x hx => ((hH x).1 hx).1, ?_⟩, fun x => ?_, fun g1 he => ?_⟩
  · intro a b ha hb hab
    rw [naH] at ha hb
    by_contra k
    have := hE.collider a j b hab ha.2 hb.2 (fun q => k ((hE.adj _ _).1 q).2)
    exact cl.excl _ _ this.1 ha.1.1
  · rw [naH]
    constructor
    · intro k
      by_cases e : x = i
      · exact Or.inr e
      rcases semi k with q | q
      · exact Or.inl (Or.inr q)
      · by_cases c : Conn g i x
        · exact Or.inl (Or.inl ⟨⟨q, c⟩, k⟩)
        · have := hE.collider x j i e k hij (fun z => c (Conn.symm hw ((hE.adj _ _).1 z).2))
          exact Or.inl (Or.inr this.1)
    · rintro ((k | k) | rfl)
      · exact k.2
      · exact hE.dir _ _ k
      · exact hij
  · refine ⟨fun x k => hD.acyclic x (Relation.TransGen.mono (fun _ _ q => q.1) _ _ k), fun u v => ?_, fun u v k => ?_,
      fun u w v hne k1 k2 k3 => ?_⟩
    · rw [del_conn h.du (fun x hx => ((hH x).1 hx).1) he]
      have := hE.adj u v
      have := asy _ _ hij
      unfold Adj at *
      unfold GES.Same
      grind
    · rw [he.dir] at k
      rcases k with ⟨k1, k2, _⟩ | ⟨k1, rfl | rfl⟩
      · exact ⟨hE.dir _ _ k1, fun q => k2 (Or.inl q)⟩
      · exact ⟨iH v k1, fun q => hHj (q.2 ▸ k1)⟩
      · exact ⟨((hH v).1 k1).2, fun q => nij q.1.symm⟩
    · rw [he.dir, he.dir]
      unfold delD
      have fix : ∀ a b, D a b → ¬ (a = i ∧ b = j) → Dir g a b → ¬ GES.Same i j a b ∧ ¬ (a ∈ H ∧ b = i) := by
        intro a b ha hnot hd
        refine ⟨?_, ?_⟩
        · rintro (q | ⟨rfl, rfl⟩)
          · exact hnot q
          · exact asy _ _ hij ha
        · rintro ⟨q, rfl⟩
          exact asy _ _ ha (iH a q)
      have both : ∀ w, D i w → D j w → w ∈ H ∨ (Dir g i w ∧ Dir g j w) := by
        intro w k1 k2
        rcases semi k2 with q | q
        · right
          refine ⟨?_, q⟩
          rcases semi k1 with z | z
          · exact z
          · exfalso
            rcases semi hij with e | e
            · exact cl.r2 i j w e q z
            · exact cl.excl _ _ (cl.key q (cl.symm _ _ z)) (cl.symm _ _ e)
        · left
          exact (hH w).2 ⟨⟨cl.symm _ _ q, ((hE.adj i w).1 (Or.inl k1)).2⟩, k2⟩
      by_cases hna : Adj D u v
      · have hs : (u = i ∧ v = j) ∨ (u = j ∧ v = i) := by
          unfold Adj at k3 hna
          have := asy _ _ hij
          grind
        rcases hs with ⟨rfl, rfl⟩ | ⟨rfl, rfl⟩
        · rcases both w k1.1 k2.1 with q | ⟨q1, q2⟩
          · exact ⟨Or.inr ⟨q, Or.inl rfl⟩, Or.inr ⟨q, Or.inr rfl⟩⟩
          · exact ⟨Or.inl ⟨q1, fix _ _ k1.1 k1.2 q1⟩, Or.inl ⟨q2, fix _ _ k2.1 k2.2 q2⟩⟩
        · rcases both w k2.1 k1.1 with q | ⟨q1, q2⟩
          · exact ⟨Or.inr ⟨q, Or.inr rfl⟩, Or.inr ⟨q, Or.inl rfl⟩⟩
          · exact ⟨Or.inl ⟨q2, fix _ _ k1.1 k1.2 q2⟩, Or.inl ⟨q1, fix _ _ k2.1 k2.2 q1⟩⟩
      · have := hE.collider u w v hne k1.1 k2.1 hna
        exact ⟨Or.inl ⟨this.1, fix _ _ k1.1 k1.2 this.1⟩, Or.inl ⟨this.2, fix _ _ k2.1 k2.2 this.2⟩⟩

/-! ### scores -/

omit [DecidableEq α] in
theorem sum_change {N : List α} (hn : N.Nodup) {j : α} (hj : j ∈ N) {f f' : α → K} (h : ∀ v ∈ N, v ≠ j → f' v = f v) :
    (N.map f').sum = (N.map f).sum + (f' j - f j) := by
  induction N with
  | nil => simp at hj
  | cons a t ih =>
    rw [List.nodup_cons] at hn
    simp only [List.map_cons, List.sum_cons]
    by_cases e : a = j
    · subst e
      have : t.map f' = t.map f := List.map_congr_left (fun v hv => h v (by simp [hv]) (fun q => hn.1 (q ▸ hv)))
      rw [this]; ring
    · have hj' : j ∈ t := by
        rcases List.mem_cons.1 hj with q | q
        · exact absurd q.symm e
        · exact q
      rw [ih hn.2 hj' (fun v hv => h v (by simp [hv])), h a (by simp) e]; ring

open Classical in
/-- The parents of a node in `D`, as a list. -/
noncomputable def parentsIn (N : List α) (D : α → α → Prop) (v : α) : List α := N.filter (fun x => D x v)

omit [DecidableEq α] in
theorem mem_parentsIn {N : List α} {D : α → α → Prop} (h : ∀ a b, D a b → a ∈ N) (v x : α) : x ∈ parentsIn N D v ↔ D x v := by
  unfold parentsIn
  simp only [List.mem_filter, decide_eq_true_eq, and_iff_right_iff_imp]
  exact h x v

omit [DecidableEq α] in
theorem dagScore_exists {N : List α} (hn : N.Nodup) {score : α → List α → K} (hsc : SetScore score) {D : α → α → Prop}
    (h : ∀ a b, D a b → a ∈ N) : DagScore score N D ((N.map (fun v => score v (parentsIn N D v))).sum) := by
  intro pa hpa
  congr 1
  refine List.map_congr_left (fun v _ => hsc v _ _ (hn.filter _) (hpa v).1 (fun x => ?_))
  rw [mem_parentsIn h, (hpa v).2]

omit [DecidableEq α] in
theorem dagScore_unique {N : List α} (hn : N.Nodup) {score : α → List α → K} {D : α → α → Prop} {s : K}
    (h : ∀ a b, D a b → a ∈ N) (hs : DagScore score N D s) : s = (N.map (fun v => score v (parentsIn N D v))).sum :=
  hs _ (fun v => ⟨hn.filter _, fun x => mem_parentsIn h v x⟩)

omit [DecidableEq α] in
theorem parentsIn_congr {N : List α} {A B : α → α → Prop} {v : α} (h : ∀ x, A x v ↔ B x v) : parentsIn N A v = parentsIn N B v := by
  unfold parentsIn
  exact List.filter_congr (fun x _ => by rw [decide_eq_decide]; exact h x)

/-- Two consistent extensions of one graph are equivalent. -/
theorem extends_inClass {A B : α → α → Prop} (hA : Extends A g) (hB : Extends B g) : InClass A B := by
  have adj : ∀ u v, Adj B u v ↔ Adj A u v := fun u v => by rw [hA.adj, hB.adj]
  refine ⟨hB.acyclic, adj, fun u w v => ⟨fun k => ?_, fun k => ?_⟩⟩
  · have := hB.collider u w v k.1 k.2.1 k.2.2.1 k.2.2.2
    exact ⟨k.1, hA.dir _ _ this.1, hA.dir _ _ this.2, fun q => k.2.2.2 ((adj u v).2 q)⟩
  · have := hA.collider u w v k.1 k.2.1 k.2.2.1 k.2.2.2
    exact ⟨k.1, hB.dir _ _ this.1, hB.dir _ _ this.2, fun q => k.2.2.2 ((adj u v).1 q)⟩

theorem extends_fin (hw : g.WF) {A : α → α → Prop} (hA : Extends A g) : ∀ a b, A a b → a ∈ g.nodeList ∧ b ∈ g.nodeList :=
  fun a b k => Conn.mem hw ((hA.adj a b).1 (Or.inl k)).2

theorem Comp.extends (h : Comp G g) : Extends G g := inClass_extends h (Complete.InClass.self h.ac)

/-- Scores of extensions of `g` and `g1` differ by the change at `j`, when the extensions `A`, `B` differ at `j` only. -/
theorem score_change {N : List α} (hn : N.Nodup) {score : α → List α → K} (hse : ScoreEquiv score N) (hsc : SetScore score)
    {g g1 : Graph α} (hw : g.WF) (hw1 : g1.WF) (hg : g.nodeList = N) (hg1 : g1.nodeList = N)
    {A B E F : α → α → Prop} (hA : Extends A g) (hB : Extends B g1) (hE : Extends E g) (hF : Extends F g1) {j : α} (hj : j ∈ N)
    (hd : ∀ v, v ≠ j → ∀ x, B x v ↔ A x v) {s t : K} (hs : DagScore score N E s) (ht : DagScore score N F t) :
    t = s + (score j (parentsIn N B j) - score j (parentsIn N A j)) := by
  have fA : ∀ a b, A a b → a ∈ N ∧ b ∈ N := hg ▸ extends_fin hw hA
  have fB : ∀ a b, B a b → a ∈ N ∧ b ∈ N := hg1 ▸ extends_fin hw1 hB
  have sA := dagScore_exists hn hsc (fun a b k => (fA a b k).1)
  have sB := dagScore_exists hn hsc (fun a b k => (fB a b k).1)
  have e1 := hse A E fA hA.acyclic (extends_inClass hA hE) _ _ sA hs
  have e2 := hse B F fB hB.acyclic (extends_inClass hB hF) _ _ sB ht
  rw [← e1, ← e2]
  exact sum_change hn hj (fun v _ hv => by rw [parentsIn_congr (hd v hv)])

theorem Comp.insert_score (h : Comp G g) {score : α → List α → K} (hsc : SetScore score) (hse : ScoreEquiv score g.nodeList)
    {maxP : ℚ} {i j : α} {T : List α} (hv : ValidInsert g maxP i j T) {g1 : Graph α}
    (he : Eff g g1 (insD g i j T) (insU g j T)) {c : K} (hc : InsertChange score g i j T c) :
    (∃ B : α → α → Prop, Extends B g1) ∧ ∀ E F : α → α → Prop, Extends E g → Extends F g1 → ∀ s t,
      DagScore score g.nodeList E s → DagScore score g.nodeList F t → t = s + c := by
  obtain ⟨A, B, hA, hB, hp, hd⟩ := h.insert hv he
  refine ⟨⟨B, hB⟩, fun E F hE hF s t hs ht => ?_⟩
  have hn := h.du.wf.nodup
  have fA := extends_fin h.du.wf hA
  have fB : ∀ a b, B a b → a ∈ g.nodeList ∧ b ∈ g.nodeList := he.nodes ▸ extends_fin he.du.wf hB
  rw [score_change hn hse hsc h.du.wf he.du.wf rfl he.nodes hA hB hE hF hv.memj (fun v hv x => by rw [hd]; simp [hv]) hs ht]
  rw [hc (parentsIn g.nodeList A j) (parentsIn g.nodeList B j) (hn.filter _) (hn.filter _)
    (fun x => by rw [mem_parentsIn (fun a b k => (fA a b k).1), hp])
    (fun x => by rw [mem_parentsIn (fun a b k => (fA a b k).1), mem_parentsIn (fun a b k => (fB a b k).1), hd]; simp)]

theorem Comp.delete_score (h : Comp G g) {score : α → List α → K} (hsc : SetScore score) (hse : ScoreEquiv score g.nodeList)
    {i j : α} {H : List α} (hv : ValidDelete g i j H) {g1 : Graph α}
    (he : Eff g g1 (delD g i j H) (delU g i j H)) {c : K} (hc : DeleteChange score g i j H c) :
    (∃ B : α → α → Prop, Extends B g1) ∧ ∀ E F : α → α → Prop, Extends E g → Extends F g1 → ∀ s t,
      DagScore score g.nodeList E s → DagScore score g.nodeList F t → t = s + c := by
  obtain ⟨A, B, hA, hB, aij, hp, hd⟩ := h.delete hv he
  refine ⟨⟨B, hB⟩, fun E F hE hF s t hs ht => ?_⟩
  have hn := h.du.wf.nodup
  have fA := extends_fin h.du.wf hA
  have fB : ∀ a b, B a b → a ∈ g.nodeList ∧ b ∈ g.nodeList := he.nodes ▸ extends_fin he.du.wf hB
  rw [score_change hn hse hsc h.du.wf he.du.wf rfl he.nodes hA hB hE hF (fA _ _ aij).2 (fun v hv x => by rw [hd]; simp [hv]) hs ht]
  rw [hc (parentsIn g.nodeList B j) (parentsIn g.nodeList A j) (hn.filter _) (hn.filter _)
    (fun x => by rw [mem_parentsIn (fun a b k => (fB a b k).1), hd, hp]; simp; tauto)
    (fun x => by
      rw [mem_parentsIn (fun a b k => (fA a b k).1), mem_parentsIn (fun a b k => (fB a b k).1), hd]
      constructor
      · intro k
        by_cases e : x = i
        · exact Or.inr e
        · exact Or.inl ⟨k, fun q => e q.1⟩
      · rintro (k | rfl)
        · exact k.1
        · exact aij)]

end GES
end Cdmir
