import Verif.Lemmas.GESOps
import Verif.Props.Pdag2dag
import Verif.Props.Dag2Cpdag
import Mathlib.Logic.Relation
import Mathlib.Algebra.BigOperators.Group.List.Basic

/-! The two loops of GES. -/

set_option linter.unusedSectionVars false

namespace Cdmir
namespace GES
open Graph Spec
variable {α : Type} [DecidableEq α] {K : Type} [Field K] [LinearOrder K] [IsStrictOrderedRing K] {g : Graph α}

/-! ### sets of nodes as sublists -/

/-- `T` as a sublist of the node list: proof device. -/
def norm (g : Graph α) (T : List α) : List α := g.nodeList.filter (fun x => x ∈ T)

theorem mem_norm {T : List α} (hT : ∀ x ∈ T, x ∈ g.nodeList) (x : α) : x ∈ norm g T ↔ x ∈ T := by
  unfold norm
  simp only [List.mem_filter, decide_eq_true_eq, and_iff_right_iff_imp]
  exact hT x

theorem filter_sublist_filter {β : Type} {l : List β} {p q : β → Bool} (h : ∀ x ∈ l, p x → q x) :
    (l.filter p).Sublist (l.filter q) := by
  induction l with
  | nil => simp
  | cons a t ih =>
    have := ih (fun x hx => h x (by simp [hx]))
    have ha := h a (by simp)
    by_cases hp : p a
    · rw [List.filter_cons_of_pos hp, List.filter_cons_of_pos (ha hp)]; exact this.cons_cons a
    · rw [List.filter_cons_of_neg hp, List.filter_cons]
      split
      · exact this.cons a
      · exact this

theorem ValidInsert.norm (hw : g.WF) {maxP : ℚ} {i j : α} {T : List α} (h : ValidInsert g maxP i j T) :
    FOp g maxP (i, j, norm g T) := by
  have hT : ∀ x ∈ T, x ∈ g.nodeList := fun x hx => (Conn.mem hw (Und.conn hw (h.cand x hx).1)).1
  refine ⟨⟨h.memi, h.memj, h.ne, h.apart, h.parents, fun t ht => h.cand t ((mem_norm hT t).1 ht), ?_, ?_⟩, ?_⟩
  · simp only [mem_norm hT]; exact h.clique
  · simp only [mem_norm hT]; exact h.block
  · unfold candT GES.norm
    refine filter_sublist_filter (fun x _ k => ?_)
    have := h.cand x (by simpa using k)
    simpa using this

theorem ValidDelete.norm (hw : g.WF) {i j : α} {T : List α} (h : ValidDelete g i j T) : BOp g (i, j, norm g T) := by
  have hT : ∀ x ∈ T, x ∈ g.nodeList := fun x hx => (Conn.mem hw (h.cand x hx).2).2
  refine ⟨⟨h.edge, fun t ht => h.cand t ((mem_norm hT t).1 ht), ?_⟩, ?_⟩
  · simp only [mem_norm hT]; exact h.clique
  · unfold naList GES.norm
    refine filter_sublist_filter (fun x _ k => ?_)
    have := h.cand x (by simpa using k)
    simpa using this

theorem InsertChange.unique (hw : g.WF) {score : α → List α → K} {i j : α} {T T' : List α} {c c' : K} (hi : i ∈ g.nodeList)
    (hT : ∀ x ∈ T, x ∈ g.nodeList) (he : ∀ x, x ∈ T ↔ x ∈ T')
    (h : InsertChange score g i j T c) (h' : InsertChange score g i j T' c') : c = c' := by
  have key := h (union1d g (union1d g (naList g i j) T) (paList g j))
    (union1d g (union1d g (union1d g (naList g i j) T) (paList g j)) [i]) (union1d_nodup hw _ _) (union1d_nodup hw _ _)
  have key' := h' (union1d g (union1d g (naList g i j) T) (paList g j))
    (union1d g (union1d g (union1d g (naList g i j) T) (paList g j)) [i]) (union1d_nodup hw _ _) (union1d_nodup hw _ _)
  have ma : ∀ x, x ∈ union1d g (union1d g (naList g i j) T) (paList g j) ↔ NA g i j x ∨ x ∈ T ∨ Dir g x j := by
    intro x
    rw [mem_union1d, mem_nat hw hT, mem_paList hw, ← or_assoc]
    refine ⟨fun k => k.2, fun k => ⟨?_, k⟩⟩
    rcases k with (k | k) | k
    · exact (Conn.mem hw k.2).2
    · exact hT x k
    · exact (Conn.mem hw (Dir.conn hw k)).1
  have mb : ∀ x, x ∈ union1d g (union1d g (union1d g (naList g i j) T) (paList g j)) [i] ↔
      x ∈ union1d g (union1d g (naList g i j) T) (paList g j) ∨ x = i := by
    intro x
    rw [mem_union1d, List.mem_singleton]
    refine ⟨fun k => k.2, fun k => ⟨?_, k⟩⟩
    rcases k with k | rfl
    · exact ((mem_union1d _ _ _ _).1 k).1
    · exact hi
  rw [key ma mb, key' (fun x => by rw [ma, he]) mb]

theorem DeleteChange.unique (hw : g.WF) {score : α → List α → K} {i j : α} {T T' : List α} {c c' : K} (hi : i ∈ g.nodeList)
    (he : ∀ x, x ∈ T ↔ x ∈ T') (h : DeleteChange score g i j T c) (h' : DeleteChange score g i j T' c') : c = c' := by
  classical
  let A := g.nodeList.filter (fun x => decide (((NA g i j x ∧ x ∉ T) ∨ Dir g x j) ∧ x ≠ i))
  have ma : ∀ x, x ∈ A ↔ ((NA g i j x ∧ x ∉ T) ∨ Dir g x j) ∧ x ≠ i := by
    intro x
    simp only [A, List.mem_filter, decide_eq_true_eq, and_iff_right_iff_imp]
    rintro ⟨k | k, _⟩
    · exact (Conn.mem hw k.1.2).2
    · exact (Conn.mem hw (Dir.conn hw k)).1
  have mb : ∀ x, x ∈ union1d g A [i] ↔ x ∈ A ∨ x = i := by
    intro x
    rw [mem_union1d, List.mem_singleton]
    refine ⟨fun k => k.2, fun k => ⟨?_, k⟩⟩
    rcases k with k | rfl
    · exact (List.mem_filter.1 k).1
    · exact hi
  rw [h A (union1d g A [i]) (hw.nodup.filter _) (union1d_nodup hw _ _) ma mb,
    h' A (union1d g A [i]) (hw.nodup.filter _) (union1d_nodup hw _ _) (fun x => by rw [ma, he]) mb]

/-! ### one pass, in terms of the specification -/

theorem forwardPass_best (h : DU g) {score : α → List α → K} (hsc : SetScore score) (maxP : ℚ) {n : Nat}
    (hn : vC2Bound g.nodeList.length ≤ n) {r : Record α K} (hr : RecOK score r) :
    ∃ b, forwardPass n maxP score g r = .ok b ∧ RecOK score b.record ∧
      (∀ i j T c, ValidInsert g maxP i j T → InsertChange score g i j T c → c ≤ b.change) ∧
      (b.op = none → b.change = -10000000) ∧
      ∀ i j T, b.op = some (i, j, T) → ValidInsert g maxP i j T ∧ T.Nodup ∧ InsertChange score g i j T b.change ∧
        -10000000 < b.change := by
  obtain ⟨b, e, hb⟩ := forwardPass_ok h hsc maxP hn hr
  refine ⟨b, e, hb.recOK, ?_, hb.nothing, ?_⟩
  · intro i j T c hv hc
    have hT : ∀ x ∈ T, x ∈ g.nodeList := fun x hx => (Conn.mem h.wf (Und.conn h.wf (hv.cand x hx).1)).1
    have hf := ValidInsert.norm h.wf hv
    have hd := insDelta_spec h hsc hv.memi (t := norm g T) (j := j) (fun x hx => hT x ((mem_norm hT x).1 hx))
    rw [InsertChange.unique h.wf hv.memi hT (fun x => (mem_norm hT x).symm) hc hd]
    exact hb.ge _ hf
  · intro i j T ho
    obtain ⟨h1, h2, h3⟩ := hb.something _ ho
    have hT : ∀ x ∈ T, x ∈ g.nodeList := fun x hx => (Conn.mem h.wf (Und.conn h.wf (h1.1.cand x hx).1)).1
    refine ⟨h1.1, h1.2.nodup (h.wf.nodup.filter _), ?_, h3⟩
    rw [h2]
    exact insDelta_spec h hsc h1.1.memi hT

theorem ValidDelete.mem (hw : g.WF) {i j : α} {T : List α} (h : ValidDelete g i j T) : i ∈ g.nodeList ∧ j ∈ g.nodeList := by
  rcases h.edge with k | k
  · exact Conn.mem hw (Dir.conn hw k)
  · exact Conn.mem hw (Und.conn hw k)

theorem backwardPass_best (h : DU g) {so : List α → List α} (hso : ∀ l, (so l).Perm l) {score : α → List α → K}
    (hsc : SetScore score) {r : Record α K} (hr : RecOK score r) :
    ∃ b, backwardPass so score g r = .ok b ∧ RecOK score b.record ∧
      (∀ i j T c, ValidDelete g i j T → DeleteChange score g i j T c → c ≤ b.change) ∧
      (b.op = none → b.change = -10000000) ∧
      ∀ i j T, b.op = some (i, j, T) → ValidDelete g i j T ∧ T.Nodup ∧ DeleteChange score g i j T b.change ∧
        -10000000 < b.change := by
  obtain ⟨b, e, hb⟩ := backwardPass_ok h hso hsc hr
  refine ⟨b, e, hb.recOK, ?_, hb.nothing, ?_⟩
  · intro i j T c hv hc
    have hT : ∀ x ∈ T, x ∈ g.nodeList := fun x hx => (Conn.mem h.wf (hv.cand x hx).2).2
    have hf := ValidDelete.norm h.wf hv
    have hd := delDelta_spec h hsc (ValidDelete.mem h.wf hv).1 (t := norm g T) (j := j)
    rw [DeleteChange.unique h.wf (ValidDelete.mem h.wf hv).1 (fun x => (mem_norm hT x).symm) hc hd]
    exact hb.ge _ hf
  · intro i j T ho
    obtain ⟨h1, h2, h3⟩ := hb.something _ ho
    refine ⟨h1.1, h1.2.nodup (h.wf.nodup.filter _), ?_, h3⟩
    rw [h2]
    exact delDelta_spec h hsc (ValidDelete.mem h.wf h1.1).1

/-! ### completion -/

theorem complete_ok (h : DU g) {so : List α → List α} (hso : ∀ l, (so l).Perm l) {n : Nat} (hn : g.nodeList.length ≤ n) :
    (∃ d g', complete n so g = .ok g' ∧ ReachableSimple .digraph d ∧ d.nodeList = g.nodeList ∧
      Extends (Dir d) g ∧ dag2cpdag so d = .ok g' ∧ DU g' ∧
      g'.nodeList = g.nodeList ∧ ∀ u v, Conn g' u v ↔ Conn g u v) ∨
    (complete n so g = .error .fuel ∧ ∀ m, pdag2dag m g = .error .fuel) := by
  by_cases hx : ∃ D : α → α → Prop, Extends D g
  · left
    obtain ⟨D, hD⟩ := hx
    obtain ⟨d, ed⟩ := pdag2dag_ok h hD
    have ed := pdag2dag_mono hn ed
    have he := pdag2dag_ends h n
    rw [ed] at he
    obtain ⟨h1, h2, h3⟩ : ReachableSimple .digraph d ∧ d.nodeList = g.nodeList ∧ Extends (Dir d) g := he
    obtain ⟨g', e, k1, k2, k3, k4, _⟩ := c23_dag2cpdag hso h1.toReachable h3.acyclic
    refine ⟨d, g', ?_, h1, h2, h3, e, ⟨k1, fun u v hc => ?_⟩, ?_, fun u v => ?_⟩
    · unfold complete
      rw [ed]
      exact e
    · have := k4 u v hc; tauto
    · exact k2.trans h2
    · rw [k3, h3.adj]
      exact ⟨fun k => k.2, fun k => ⟨h.ne k, k⟩⟩
  · right
    have := (c27_terminates_iff h.rs h.du).2.2.1 hx
    refine ⟨?_, this⟩
    unfold complete
    rw [this]
    rfl

/-! ### the loop -/

omit [DecidableEq α] in
/-- What the loop needs from its parts: proof device. -/
theorem greedyLoop_ok {pass : Graph α → Record α K → Except Err (Best α K)}
    {apply : Graph α → α → α → List α → Except Err (Graph α)} {compl : Graph α → Except Err (Graph α)}
    {Inv : Graph α → Prop} {R : Record α K → Prop} {M : Graph α → Nat} {Step : Graph α × K → Graph α × K → Prop}
    {Fin Stuck : Graph α → Prop}
    (hp : ∀ g r, Inv g → R r → ∃ b, pass g r = .ok b ∧ R b.record ∧
      ((b.op = none ∧ Fin g) ∨ (∃ i j T, b.op = some (i, j, T) ∧ b.change ≤ 0 ∧ Fin g) ∨
        ∃ i j T g1, b.op = some (i, j, T) ∧ 0 < b.change ∧ apply g i j T = .ok g1 ∧
          ((∃ g', compl g1 = .ok g' ∧ Inv g' ∧ M g' < M g ∧ ∀ s, Step (g, s) (g', s + b.change)) ∨
            (compl g1 = .error .fuel ∧ Stuck g)))) :
    ∀ (n : Nat) (s : State α K), Inv s.graph → R s.record → M s.graph < n →
      (∃ s', greedyLoop pass apply compl n s = .ok s' ∧ Inv s'.graph ∧ R s'.record ∧
        Relation.ReflTransGen Step (s.graph, s.score) (s'.graph, s'.score) ∧ Fin s'.graph) ∨
      (greedyLoop pass apply compl n s = .error .fuel ∧
        ∃ t, Relation.ReflTransGen Step (s.graph, s.score) t ∧ Stuck t.1) := by
  intro n
  induction n with
  | zero => intro s _ _ h; omega
  | succ n ih =>
    intro s hi hr hm
    obtain ⟨b, eb, hrb, hb⟩ := hp s.graph s.record hi hr
    rcases hb with ⟨ho, hf⟩ | ⟨i, j, T, ho, hc, hf⟩ | ⟨i, j, T, g1, ho, hc, ea, hb⟩
    · left
      refine ⟨{ s with record := b.record }, ?_, hi, hrb, .refl, hf⟩
      unfold greedyLoop
      rw [eb]
      simp only [bind, Except.bind, ho]
      rfl
    · left
      refine ⟨{ s with record := b.record }, ?_, hi, hrb, .refl, hf⟩
      unfold greedyLoop
      rw [eb]
      simp only [bind, Except.bind, ho]
      rw [if_pos (by linarith)]
      rfl
    · rcases hb with ⟨g', ec, hi', hm', hst⟩ | ⟨ec, hst⟩
      · have e : greedyLoop pass apply compl (n + 1) s = greedyLoop pass apply compl n ⟨g', s.score + b.change, b.record⟩ := by
          conv_lhs => unfold greedyLoop
          rw [eb]
          simp only [bind, Except.bind, ho]
          rw [if_neg (by linarith), ea]
          simp only
          rw [ec]
        rw [e]
        rcases ih ⟨g', s.score + b.change, b.record⟩ hi' hrb (by simp only; omega) with ⟨s', k1, k2, k3, k4, k5⟩ | ⟨k1, t, k2, k3⟩
        · exact Or.inl ⟨s', k1, k2, k3, .head (hst _) k4, k5⟩
        · exact Or.inr ⟨k1, t, .head (hst _) k2, k3⟩
      · right
        refine ⟨?_, (s.graph, s.score), .refl, hst⟩
        unfold greedyLoop
        rw [eb]
        simp only [bind, Except.bind, ho]
        rw [if_neg (by linarith), ea]
        simp only
        rw [ec]

open Classical in
/-- Pairs not adjacent: measure of the forward phase. -/
noncomputable def openPairs (g : Graph α) : Nat := ((allPairs g.nodeList).filter (fun p => ¬ Conn g p.1 p.2)).length

open Classical in
/-- Adjacent pairs: measure of the backward phase. -/
noncomputable def shutPairs (g : Graph α) : Nat := ((allPairs g.nodeList).filter (fun p => Conn g p.1 p.2)).length

theorem filter_lt {β : Type} {l : List β} {p q : β → Bool} (h : ∀ x ∈ l, p x → q x) {y : β} (hy : y ∈ l) (h1 : q y = true)
    (h2 : p y = false) : (l.filter p).length < (l.filter q).length := by
  have e : l.filter p = (l.filter q).filter p := by
    rw [List.filter_filter]
    refine List.filter_congr (fun x hx => ?_)
    have := h x hx
    cases hp : p x <;> simp_all
  rw [e]
  exact List.length_filter_lt_length_iff_exists.2 ⟨y, List.mem_filter.2 ⟨hy, h1⟩, by simp [h2]⟩

omit [DecidableEq α] in
theorem allPairs_length (l : List α) : (allPairs l).length = l.length * l.length := by
  unfold allPairs
  rw [List.length_flatMap]
  simp

theorem openPairs_le (g : Graph α) : openPairs g ≤ g.nodeList.length * g.nodeList.length := by
  unfold openPairs
  rw [← allPairs_length]
  exact List.length_filter_le _ _

theorem shutPairs_le (g : Graph α) : shutPairs g ≤ g.nodeList.length * g.nodeList.length := by
  unfold shutPairs
  rw [← allPairs_length]
  exact List.length_filter_le _ _

theorem Eff.conn {g' : Graph α} {D U : α → α → Prop} (h : Eff g g' D U) (u v : α) : Conn g' u v ↔ D u v ∨ D v u ∨ U u v := by
  rw [← h.dir, ← h.dir, ← h.und]
  refine ⟨h.du.du u v, ?_⟩
  rintro (k | k | k)
  · exact Dir.conn h.du.wf k
  · exact Conn.symm h.du.wf (Dir.conn h.du.wf k)
  · exact Und.conn h.du.wf k

theorem ins_conn (h : DU g) {i j : α} {T : List α} (hT : ∀ t ∈ T, Und g t j) {g' : Graph α}
    (he : Eff g g' (insD g i j T) (insU g j T)) (u v : α) : Conn g' u v ↔ Conn g u v ∨ Same i j u v := by
  have hw := h.wf
  rw [he.conn]
  unfold insD insU Same
  constructor
  · rintro ((k | ⟨rfl, k | k⟩) | (k | ⟨rfl, k | k⟩) | k)
    · exact Or.inl (Dir.conn hw k)
    · exact Or.inr (Or.inl ⟨k, rfl⟩)
    · exact Or.inl (Und.conn hw (hT _ k))
    · exact Or.inl (Conn.symm hw (Dir.conn hw k))
    · exact Or.inr (Or.inr ⟨rfl, k⟩)
    · exact Or.inl (Conn.symm hw (Und.conn hw (hT _ k)))
    · exact Or.inl (Und.conn hw k.1)
  · rintro (k | ⟨rfl, rfl⟩ | ⟨rfl, rfl⟩)
    · rcases h.du u v k with k | k | k
      · exact Or.inl (Or.inl k)
      · exact Or.inr (Or.inl (Or.inl k))
      · by_cases c1 : v = j ∧ u ∈ T
        · exact Or.inl (Or.inr ⟨c1.1, Or.inr c1.2⟩)
        · by_cases c2 : u = j ∧ v ∈ T
          · exact Or.inr (Or.inl (Or.inr ⟨c2.1, Or.inr c2.2⟩))
          · exact Or.inr (Or.inr ⟨k, c1, c2⟩)
    · exact Or.inl (Or.inr ⟨rfl, Or.inl rfl⟩)
    · exact Or.inr (Or.inl (Or.inr ⟨rfl, Or.inl rfl⟩))

theorem del_conn (h : DU g) {i j : α} {H : List α} (hH : ∀ t ∈ H, NA g i j t) {g' : Graph α}
    (he : Eff g g' (delD g i j H) (delU g i j H)) (u v : α) : Conn g' u v ↔ Conn g u v ∧ ¬ Same i j u v := by
  have hw := h.wf
  have pj : j ∉ H := fun k => h.ne (Und.conn hw (hH j k).1) rfl
  have pi : i ∉ H := fun k => h.ne (hH i k).2 rfl
  have s1 : ∀ {a b}, b ∈ H → (a = i ∨ a = j) → Conn g a b := by
    rintro a b hb (rfl | rfl)
    · exact (hH b hb).2
    · exact Conn.symm hw (Und.conn hw (hH b hb).1)
  have s2 : ∀ {a b}, b ∈ H → ¬ Same i j a b := by
    rintro a b hb (⟨rfl, rfl⟩ | ⟨rfl, rfl⟩)
    · exact pj hb
    · exact pi hb
  have s3 : ∀ {a b}, Same i j a b ↔ Same i j b a := by intro a b; unfold Same; tauto
  rw [he.conn]
  unfold delD delU
  constructor
  · rintro ((k | k) | (k | k) | k)
    · exact ⟨Dir.conn hw k.1, k.2.1⟩
    · exact ⟨s1 k.1 k.2, s2 k.1⟩
    · exact ⟨Conn.symm hw (Dir.conn hw k.1), fun q => k.2.1 (s3.1 q)⟩
    · exact ⟨Conn.symm hw (s1 k.1 k.2), fun q => s2 k.1 (s3.1 q)⟩
    · exact ⟨Und.conn hw k.1, k.2.1⟩
  · rintro ⟨k, ns⟩
    have ns' : ¬ Same i j v u := fun q => ns (s3.1 q)
    by_cases c1 : v ∈ H ∧ (u = i ∨ u = j)
    · exact Or.inl (Or.inr c1)
    · by_cases c2 : u ∈ H ∧ (v = i ∨ v = j)
      · exact Or.inr (Or.inl (Or.inr c2))
      · rcases h.du u v k with k | k | k
        · exact Or.inl (Or.inl ⟨k, ns, fun q => c2 ⟨q.1, Or.inl q.2⟩⟩)
        · exact Or.inr (Or.inl (Or.inl ⟨k, ns', fun q => c1 ⟨q.1, Or.inl q.2⟩⟩))
        · exact Or.inr (Or.inr ⟨k, ns, c2, c1⟩)

theorem forwardLoop_ok {so : List α → List α} (hso : ∀ l, (so l).Perm l) {score : α → List α → K}
    (hsc : SetScore score) (maxP : ℚ) (N : List α) {n m : Nat} (hn : vC2Bound N.length ≤ n) (hn' : N.length ≤ n) (s : State α K)
    (hs : DU s.graph) (hN : s.graph.nodeList = N) (hr : RecOK score s.record) (hm : N.length * N.length < m) :
    (∃ s', greedyLoop (forwardPass n maxP score) insertOp (complete n so) m s = .ok s' ∧
        (DU s'.graph ∧ s'.graph.nodeList = N) ∧ RecOK score s'.record ∧
        Relation.ReflTransGen (InsertRound so maxP score) (s.graph, s.score) (s'.graph, s'.score) ∧
        InsertOptimal maxP score s'.graph) ∨
      (greedyLoop (forwardPass n maxP score) insertOp (complete n so) m s = .error .fuel ∧
        ∃ t, Relation.ReflTransGen (InsertRound so maxP score) (s.graph, s.score) t ∧ InsertStuck maxP score t.1) := by
  classical
  refine greedyLoop_ok (Inv := fun g => DU g ∧ g.nodeList = N) (R := RecOK score) (M := openPairs) ?_ m s ⟨hs, hN⟩ hr
    (lt_of_le_of_lt (openPairs_le _) (by rw [hN]; exact hm))
  rintro g r ⟨h, rfl⟩ hr
  obtain ⟨b, e, hrb, hge, hnone, hsome⟩ := forwardPass_best h hsc maxP hn hr
  refine ⟨b, e, hrb, ?_⟩
  cases ho : b.op with
  | none =>
    left
    refine ⟨rfl, fun i j T c hv hc => (hge i j T c hv hc).trans ?_⟩
    rw [hnone ho]; norm_num
  | some o =>
    obtain ⟨i, j, T⟩ := o
    obtain ⟨hv, _, hch, _⟩ := hsome i j T ho
    by_cases hc : b.change ≤ 0
    · exact Or.inr (Or.inl ⟨i, j, T, rfl, hc, fun i j T c hv hc' => (hge i j T c hv hc').trans hc⟩)
    · right; right
      have hpos := not_le.1 hc
      obtain ⟨g1, e1, f1⟩ := insertOp_eff h hv.memi hv.memj hv.ne hv.apart (fun t ht => (hv.cand t ht).1)
      have hB : BestInsert maxP score g i j T b.change := ⟨hv, hch, hpos, hge⟩
      refine ⟨i, j, T, g1, rfl, hpos, e1, ?_⟩
      rcases complete_ok f1.du hso (n := n) (by rw [f1.nodes]; exact hn') with ⟨d, g', k1, k2, kn, k3, k4, k5, k6, k7⟩ | ⟨k1, k2⟩
      · refine Or.inl ⟨g', k1, ⟨k5, k6.trans f1.nodes⟩, ?_, fun s => ⟨i, j, T, b.change, g1, d, hB, e1, k2, kn.trans f1.nodes, k3, k4, rfl⟩⟩
        unfold openPairs
        rw [k6, f1.nodes]
        refine filter_lt (y := (i, j)) ?_ (mem_allPairs.2 ⟨hv.memi, hv.memj⟩) ?_ ?_
        · intro x _ hx
          simp only [decide_eq_true_eq] at hx ⊢
          intro q
          exact hx ((k7 _ _).2 ((ins_conn h (fun t ht => (hv.cand t ht).1) f1 _ _).2 (Or.inl q)))
        · simpa using hv.apart
        · simp only [decide_eq_false_iff_not, not_not]
          exact (k7 _ _).2 ((ins_conn h (fun t ht => (hv.cand t ht).1) f1 _ _).2 (Or.inr (Or.inl ⟨rfl, rfl⟩)))
      · exact Or.inr ⟨k1, i, j, T, b.change, g1, hB, e1, k2⟩

theorem backwardLoop_ok {so : List α → List α} (hso : ∀ l, (so l).Perm l) {score : α → List α → K}
    (hsc : SetScore score) (N : List α) {n m : Nat} (hn' : N.length ≤ n) (s : State α K)
    (hs : DU s.graph) (hN : s.graph.nodeList = N) (hr : RecOK score s.record) (hm : N.length * N.length < m) :
    (∃ s', greedyLoop (backwardPass so score) deleteOp (complete n so) m s = .ok s' ∧
        (DU s'.graph ∧ s'.graph.nodeList = N) ∧ RecOK score s'.record ∧
        Relation.ReflTransGen (DeleteRound so score) (s.graph, s.score) (s'.graph, s'.score) ∧
        DeleteOptimal score s'.graph) ∨
      (greedyLoop (backwardPass so score) deleteOp (complete n so) m s = .error .fuel ∧
        ∃ t, Relation.ReflTransGen (DeleteRound so score) (s.graph, s.score) t ∧ DeleteStuck score t.1) := by
  classical
  refine greedyLoop_ok (Inv := fun g => DU g ∧ g.nodeList = N) (R := RecOK score) (M := shutPairs) ?_ m s ⟨hs, hN⟩ hr
    (lt_of_le_of_lt (shutPairs_le _) (by rw [hN]; exact hm))
  rintro g r ⟨h, rfl⟩ hr
  obtain ⟨b, e, hrb, hge, hnone, hsome⟩ := backwardPass_best h hso hsc hr
  refine ⟨b, e, hrb, ?_⟩
  cases ho : b.op with
  | none =>
    left
    refine ⟨rfl, fun i j T c hv hc => (hge i j T c hv hc).trans ?_⟩
    rw [hnone ho]; norm_num
  | some o =>
    obtain ⟨i, j, T⟩ := o
    obtain ⟨hv, _, hch, _⟩ := hsome i j T ho
    by_cases hc : b.change ≤ 0
    · exact Or.inr (Or.inl ⟨i, j, T, rfl, hc, fun i j T c hv hc' => (hge i j T c hv hc').trans hc⟩)
    · right; right
      have hpos := not_le.1 hc
      have hmem := ValidDelete.mem h.wf hv
      have hcon : Conn g i j := hv.edge.elim (fun k => Dir.conn h.wf k) (fun k => Und.conn h.wf k)
      obtain ⟨g1, e1, f1⟩ := deleteOp_eff h hmem.1 hmem.2 (h.ne hcon) hv.cand
      have hB : BestDelete score g i j T b.change := ⟨hv, hch, hpos, hge⟩
      refine ⟨i, j, T, g1, rfl, hpos, e1, ?_⟩
      rcases complete_ok f1.du hso (n := n) (by rw [f1.nodes]; exact hn') with ⟨d, g', k1, k2, kn, k3, k4, k5, k6, k7⟩ | ⟨k1, k2⟩
      · refine Or.inl ⟨g', k1, ⟨k5, k6.trans f1.nodes⟩, ?_, fun s => ⟨i, j, T, b.change, g1, d, hB, e1, k2, kn.trans f1.nodes, k3, k4, rfl⟩⟩
        unfold shutPairs
        rw [k6, f1.nodes]
        refine filter_lt (y := (i, j)) ?_ (mem_allPairs.2 hmem) ?_ ?_
        · intro x _ hx
          simp only [decide_eq_true_eq] at hx ⊢
          exact ((del_conn h hv.cand f1 _ _).1 ((k7 _ _).1 hx)).1
        · simpa using hcon
        · simp only [decide_eq_false_iff_not]
          intro q
          exact ((del_conn h hv.cand f1 _ _).1 ((k7 _ _).1 q)).2 (Or.inl ⟨rfl, rfl⟩)
      · exact Or.inr ⟨k1, i, j, T, b.change, g1, hB, e1, k2⟩

/-! ### counting the rounds -/

omit [DecidableEq α] in
theorem allPairs_nodup {l : List α} (h : l.Nodup) : (allPairs l).Nodup := by
  have : allPairs l = l.product l := rfl
  rw [this]
  exact h.product h

theorem completed {g1 d g' : Graph α} (h : DU g1) {so : List α → List α} (hso : ∀ l, (so l).Perm l) (hd : ReachableSimple .digraph d)
    (he : Extends (Dir d) g1) (e : dag2cpdag so d = .ok g') :
    DU g' ∧ g'.nodeList = d.nodeList ∧ ∀ u v, Conn g' u v ↔ Conn g1 u v := by
  obtain ⟨x, e', k1, k2, k3, k4, _⟩ := c23_dag2cpdag hso hd.toReachable he.acyclic
  rw [e] at e'
  obtain rfl := Except.ok.inj e'
  refine ⟨⟨k1, fun u v hc => ?_⟩, k2, fun u v => ?_⟩
  · have := k4 u v hc; tauto
  · rw [k3, he.adj]
    exact ⟨fun k => k.2, fun k => ⟨h.ne k, k⟩⟩

theorem insertRound_step {so : List α → List α} (hso : ∀ l, (so l).Perm l) {maxP : ℚ} {score : α → List α → K}
    {s s' : Graph α × K} (h : DU s.1) (r : InsertRound so maxP score s s') :
    DU s'.1 ∧ s'.1.nodeList = s.1.nodeList ∧ s.2 < s'.2 ∧ ∃ i j, i ∈ s.1.nodeList ∧ j ∈ s.1.nodeList ∧ i ≠ j ∧ ¬ Conn s.1 i j ∧
      ∀ u v, Conn s'.1 u v ↔ Conn s.1 u v ∨ Same i j u v := by
  obtain ⟨i, j, T, c, g1, d, hB, e1, hd, hn, he, ec, es⟩ := r
  have hv := hB.valid
  obtain ⟨x, e, f⟩ := insertOp_eff h hv.memi hv.memj hv.ne hv.apart (fun t ht => (hv.cand t ht).1)
  rw [e1] at e
  obtain rfl := Except.ok.inj e
  obtain ⟨k1, k2, k3⟩ := completed f.du hso hd he ec
  refine ⟨k1, k2.trans hn, ?_, i, j, hv.memi, hv.memj, hv.ne, hv.apart, fun u v => ?_⟩
  · have := hB.pos; rw [es]; linarith
  · rw [k3, ins_conn h (fun t ht => (hv.cand t ht).1) f]

theorem deleteRound_step {so : List α → List α} (hso : ∀ l, (so l).Perm l) {score : α → List α → K}
    {s s' : Graph α × K} (h : DU s.1) (r : DeleteRound so score s s') :
    DU s'.1 ∧ s'.1.nodeList = s.1.nodeList ∧ s.2 < s'.2 ∧ ∃ i j, i ∈ s.1.nodeList ∧ j ∈ s.1.nodeList ∧ i ≠ j ∧ Conn s.1 i j ∧
      ∀ u v, Conn s'.1 u v ↔ Conn s.1 u v ∧ ¬ Same i j u v := by
  obtain ⟨i, j, T, c, g1, d, hB, e1, hd, hn, he, ec, es⟩ := r
  have hv := hB.valid
  have hmem := ValidDelete.mem h.wf hv
  have hcon : Conn s.1 i j := hv.edge.elim (fun k => Dir.conn h.wf k) (fun k => Und.conn h.wf k)
  obtain ⟨x, e, f⟩ := deleteOp_eff h hmem.1 hmem.2 (h.ne hcon) hv.cand
  rw [e1] at e
  obtain rfl := Except.ok.inj e
  obtain ⟨k1, k2, k3⟩ := completed f.du hso hd he ec
  refine ⟨k1, k2.trans hn, ?_, i, j, hmem.1, hmem.2, h.ne hcon, hcon, fun u v => ?_⟩
  · have := hB.pos; rw [es]; linarith
  · rw [k3, del_conn h hv.cand f]

theorem shutPairs_add {g g' : Graph α} (h : DU g) (hn : g'.nodeList = g.nodeList) {i j : α} (hi : i ∈ g.nodeList)
    (hj : j ∈ g.nodeList) (hne : i ≠ j) (hc : ¬ Conn g i j) (hs : ∀ u v, (Conn g u v ∨ Same i j u v) → Conn g' u v) :
    shutPairs g + 2 ≤ shutPairs g' := by
  classical
  unfold shutPairs
  rw [hn]
  have nd := (allPairs_nodup h.wf.nodup).filter (fun p => decide (Conn g p.1 p.2))
  have hc' : ¬ Conn g j i := fun k => hc (Conn.symm h.wf k)
  have nd' : ((i, j) :: (j, i) :: (allPairs g.nodeList).filter (fun p => decide (Conn g p.1 p.2))).Nodup := by
    simp only [List.nodup_cons, List.mem_cons, Prod.mk.injEq, List.mem_filter, decide_eq_true_eq]
    refine ⟨?_, fun k => hc' k.2, nd⟩
    rintro (k | k)
    · exact hne k.1
    · exact hc k.2
  have := (nd'.subperm (l₂ := (allPairs g.nodeList).filter (fun p => decide (Conn g' p.1 p.2))) ?_).length_le
  · simpa using this
  · intro p hp
    simp only [List.mem_cons, List.mem_filter, decide_eq_true_eq] at hp ⊢
    rcases hp with rfl | rfl | ⟨k1, k2⟩
    · exact ⟨mem_allPairs.2 ⟨hi, hj⟩, hs _ _ (Or.inr (Or.inl ⟨rfl, rfl⟩))⟩
    · exact ⟨mem_allPairs.2 ⟨hj, hi⟩, hs _ _ (Or.inr (Or.inr ⟨rfl, rfl⟩))⟩
    · exact ⟨k1, hs _ _ (Or.inl k2)⟩

theorem shutPairs_max (h : DU g) : shutPairs g + g.nodeList.length ≤ g.nodeList.length * g.nodeList.length := by
  classical
  unfold shutPairs
  have nd := (allPairs_nodup h.wf.nodup).filter (fun p => decide (Conn g p.1 p.2))
  have nd2 : (g.nodeList.map (fun x => (x, x))).Nodup := h.wf.nodup.map (fun a b k => by simpa using k)
  have nd' : ((allPairs g.nodeList).filter (fun p => decide (Conn g p.1 p.2)) ++ g.nodeList.map (fun x => (x, x))).Nodup := by
    refine List.nodup_append.2 ⟨nd, nd2, ?_⟩
    rintro p hp q hq rfl
    simp only [List.mem_filter, decide_eq_true_eq] at hp
    obtain ⟨x, _, rfl⟩ := List.mem_map.1 hq
    exact h.ne hp.2 rfl
  have := (nd'.subperm (l₂ := allPairs g.nodeList) ?_).length_le
  · simpa [allPairs_length] using this
  · intro p hp
    rcases List.mem_append.1 hp with k | k
    · exact (List.mem_filter.1 k).1
    · obtain ⟨x, hx, rfl⟩ := List.mem_map.1 k
      exact mem_allPairs.2 ⟨hx, hx⟩

theorem insertRounds {so : List α → List α} (hso : ∀ l, (so l).Perm l) {maxP : ℚ} {score : α → List α → K}
    {s s' : Graph α × K} (h : DU s.1) (r : Relation.ReflTransGen (InsertRound so maxP score) s s') :
    ∃ k, Rounds (InsertRound so maxP score) k s s' ∧ DU s'.1 ∧ s'.1.nodeList = s.1.nodeList ∧
      shutPairs s.1 + 2 * k ≤ shutPairs s'.1 ∧ s.2 ≤ s'.2 := by
  induction r with
  | refl => exact ⟨0, .zero _, h, rfl, by simp, le_refl _⟩
  | tail _ hr ih =>
    obtain ⟨k, a1, a2, a3, a4, a5⟩ := ih
    obtain ⟨b1, b2, b3, i, j, hi, hj, hne, hc, hs⟩ := insertRound_step hso a2 hr
    have := shutPairs_add a2 b2 hi hj hne hc (fun u v => (hs u v).2)
    exact ⟨k + 1, .succ a1 hr, b1, b2.trans a3, by omega, a5.trans b3.le⟩

theorem deleteRounds {so : List α → List α} (hso : ∀ l, (so l).Perm l) {score : α → List α → K}
    {s s' : Graph α × K} (h : DU s.1) (r : Relation.ReflTransGen (DeleteRound so score) s s') :
    ∃ k, Rounds (DeleteRound so score) k s s' ∧ DU s'.1 ∧ s'.1.nodeList = s.1.nodeList ∧
      shutPairs s'.1 + 2 * k ≤ shutPairs s.1 ∧ s.2 ≤ s'.2 := by
  induction r with
  | refl => exact ⟨0, .zero _, h, rfl, by simp, le_refl _⟩
  | tail _ hr ih =>
    obtain ⟨k, a1, a2, a3, a4, a5⟩ := ih
    obtain ⟨b1, b2, b3, i, j, hi, hj, hne, hc, hs⟩ := deleteRound_step hso a2 hr
    have := shutPairs_add b1 b2.symm (b2 ▸ hi) (b2 ▸ hj) hne (fun k => ((hs i j).1 k).2 (Or.inl ⟨rfl, rfl⟩)) (fun u v => ?_)
    · exact ⟨k + 1, .succ a1 hr, b1, b2.trans a3, by omega, a5.trans b3.le⟩
    · rintro (q | q)
      · exact ((hs u v).1 q).1
      · rcases q with ⟨rfl, rfl⟩ | ⟨rfl, rfl⟩
        · exact hc
        · exact Conn.symm a2.wf hc

/-! ### fit -/

theorem init_du {names : List α} (h : Graph.init .pdag names = .ok g) : DU g ∧ g.nodeList = names ∧ ∀ u v, ¬ Conn g u v := by
  obtain ⟨h1, h2, h3, h4⟩ := init_WF h
  have nc : ∀ u v, ¬ Conn g u v := by
    intro u v k
    rw [conn_iff h1, h4] at k
    simp at k
  exact ⟨⟨⟨names, g, [], h, by simp, rfl⟩, fun u v k => absurd k (nc u v)⟩, h2, nc⟩

theorem scoreG_init {names : List α} (h : Graph.init .pdag names = .ok g) (score : α → List α → K) :
    scoreG score g = .ok (names.map (fun v => score v [])).sum := by
  obtain ⟨hd, hn, hc⟩ := init_du h
  have hw := hd.wf
  have nb : ∀ u ∈ g.nodeList, g.getNeighbours u = .ok [] := by
    intro u hu
    rw [getNeighbours_ok hw hu]
    congr 1
    refine List.eq_nil_iff_forall_not_mem.2 (fun v hv => hc u v ?_)
    rw [conn_iff hw]
    exact (mem_nbrs g u v).1 hv
  unfold scoreG
  have : ∀ (l : List α) (s : K), (∀ u ∈ l, u ∈ g.nodeList) → l.foldlM (fun s u => do
      let pa ← filterE (fun v => g.isArrow v u) (← g.getNeighbours u)
      pure (s + score u pa)) s = (.ok (s + (l.map (fun v => score v [])).sum) : Except Err K) := by
    intro l
    induction l with
    | nil => intro s _; simp [pure, Except.pure]
    | cons u t ih =>
      intro s hu
      rw [List.foldlM_cons, nb u (hu u (by simp))]
      simp only [bind, Except.bind, filterE, pure, Except.pure]
      have := ih (s + score u []) (fun x hx => hu x (by simp [hx]))
      simp only [bind, Except.bind, pure, Except.pure] at this
      rw [this]
      simp [add_assoc]
  have e := this g.nodes 0 (fun u hu => hu)
  rw [e]
  simp [← hn, Graph.nodes]

/-! ### more fuel does not change a result -/

/-- Every result of `a` is the result of `b`: proof device. -/
def Le {β : Type} (a b : Except Err β) : Prop := ∀ x, a = .ok x → b = .ok x

theorem Le.rfl {β : Type} {a : Except Err β} : Le a a := fun _ h => h

theorem Le.bind {β γ : Type} {a b : Except Err β} {f f' : β → Except Err γ} (h : Le a b) (hf : ∀ x, Le (f x) (f' x)) :
    Le (a >>= f) (b >>= f') := by
  intro y hy
  cases a with
  | error e => cases hy
  | ok x =>
    rw [h x (Eq.refl _)]
    exact hf x y hy

theorem Le.foldlM {σ β : Type} {f f' : σ → β → Except Err σ} (h : ∀ s x, Le (f s x) (f' s x)) (l : List β) (s : σ) :
    Le (l.foldlM f s) (l.foldlM f' s) := by
  induction l generalizing s with
  | nil => exact Le.rfl
  | cons a t ih =>
    rw [List.foldlM_cons, List.foldlM_cons]
    exact (h s a).bind ih

theorem Le.ite {β : Type} {c : Prop} [Decidable c] {a b a' b' : Except Err β} (h : Le a a') (h' : Le b b') :
    Le (if c then a else b) (if c then a' else b') := by
  split_ifs <;> assumption

theorem vC2Loop_le {n m : Nat} (h : n ≤ m) (g : Graph α) (t : α) (nat : List α) (st : List (α × List α)) :
    Le (vC2Loop g t nat n st) (vC2Loop g t nat m st) := by
  induction n generalizing m st with
  | zero =>
    cases st with
    | nil => unfold vC2Loop; exact Le.rfl
    | cons e st => intro x hx; unfold vC2Loop at hx; cases hx
  | succ n ih =>
    obtain ⟨m, rfl⟩ : ∃ k, m = k + 1 := ⟨m - 1, by omega⟩
    cases st with
    | nil => unfold vC2Loop; exact Le.rfl
    | cons e st =>
      obtain ⟨x, anc⟩ := e
      unfold vC2Loop
      exact Le.ite (Le.ite (ih (by omega) _) Le.rfl) (Le.rfl.bind (fun _ => ih (by omega) _))

theorem forwardSub_le {n m : Nat} (h : n ≤ m) (score : α → List α → K) (g : Graph α) (i j : α) (sub : List (List α))
    (s : List Nat × Best α K) (k : Nat) : Le (forwardSub n score g i j sub s k) (forwardSub m score g i j sub s k) := by
  have h2 : Le (insertValid2 n g i j (sub.getD k [])) (insertValid2 m g i j (sub.getD k [])) :=
    Le.rfl.bind (fun _ => vC2Loop_le h _ _ _ _)
  unfold forwardSub
  refine Le.ite (Le.rfl.bind (fun b => ?_)) Le.rfl
  refine Le.ite ?_ Le.rfl
  exact Le.ite (h2.bind (fun _ => Le.rfl)) Le.rfl

theorem forwardPass_le {n m : Nat} (h : n ≤ m) (maxP : ℚ) (score : α → List α → K) (g : Graph α) (r : Record α K) :
    Le (forwardPass n maxP score g r) (forwardPass m maxP score g r) := by
  refine Le.foldlM (fun b p => ?_) _ _
  unfold forwardPair
  refine Le.rfl.bind (fun c => Le.ite (Le.rfl.bind (fun _ => Le.ite ?_ Le.rfl)) Le.rfl)
  exact Le.rfl.bind (fun _ => Le.rfl.bind (fun _ => (Le.foldlM (fun s k => forwardSub_le h _ _ _ _ _ s k) _ _).bind (fun _ => Le.rfl)))

theorem complete_le {n m : Nat} (h : n ≤ m) (so : List α → List α) (g : Graph α) : Le (complete n so g) (complete m so g) :=
  Le.bind (fun _ e => pdag2dag_mono h e) (fun _ => Le.rfl)

omit [DecidableEq α] in
theorem greedyLoop_le {pass pass' : Graph α → Record α K → Except Err (Best α K)}
    {apply : Graph α → α → α → List α → Except Err (Graph α)} {compl compl' : Graph α → Except Err (Graph α)}
    (hp : ∀ g r, Le (pass g r) (pass' g r)) (hc : ∀ g, Le (compl g) (compl' g)) {n m : Nat} (h : n ≤ m) (s : State α K) :
    Le (greedyLoop pass apply compl n s) (greedyLoop pass' apply compl' m s) := by
  induction n generalizing m s with
  | zero => intro x hx; unfold greedyLoop at hx; cases hx
  | succ n ih =>
    obtain ⟨m, rfl⟩ : ∃ k, m = k + 1 := ⟨m - 1, by omega⟩
    unfold greedyLoop
    refine (hp _ _).bind (fun b => ?_)
    cases b.op with
    | none => exact Le.rfl
    | some o =>
      obtain ⟨i, j, t⟩ := o
      exact Le.ite Le.rfl (Le.rfl.bind (fun _ => (hc _).bind (fun _ => ih (by omega) _)))

theorem fit_le {n m : Nat} (h : n ≤ m) (so : List α → List α) (maxP : ℚ) (score : α → List α → K) (names : List α) :
    Le (fit n so maxP score names) (fit m so maxP score names) := by
  unfold fit
  refine Le.rfl.bind (fun g => Le.rfl.bind (fun s => (complete_le h so g).bind (fun g => ?_)))
  refine (greedyLoop_le (fun _ _ => forwardPass_le h _ _ _ _) (fun _ => complete_le h _ _) h _).bind (fun a => ?_)
  exact (greedyLoop_le (fun _ _ => Le.rfl) (fun _ => complete_le h _ _) h _).bind (fun _ => Le.rfl)

/-- The graph `fit` starts from: the empty graph is its own completion. -/
theorem complete_init {names : List α} (h : Graph.init .pdag names = .ok g) {so : List α → List α} (hso : ∀ l, (so l).Perm l)
    {n : Nat} (hn : names.length ≤ n) :
    ∃ g0, complete n so g = .ok g0 ∧ DU g0 ∧ g0.nodeList = names ∧ ∀ u v, ¬ Conn g0 u v := by
  obtain ⟨hd, hN, hc⟩ := init_du h
  rcases complete_ok hd hso (n := n) (by rw [hN]; exact hn) with ⟨d, g', k1, _, _, _, _, k5, k6, k7⟩ | ⟨_, k⟩
  · exact ⟨g', k1, k5, k6.trans hN, fun u v q => hc u v ((k7 u v).1 q)⟩
  · exfalso
    obtain ⟨d, e⟩ := pdag2dag_ok hd (D := fun _ _ => False)
      ⟨fun a k => by
        have : ∀ x y, Relation.TransGen (fun _ _ : α => False) x y → False := by
          intro x y k; induction k <;> assumption
        exact this _ _ k, fun u v => by simp [hc, Adj], fun u v k => absurd (Dir.conn hd.wf k) (hc u v), fun u w v _ k => k.elim⟩
    rw [k] at e
    cases e

theorem fit_ok {names : List α} (hN : names.Nodup) {so : List α → List α} (hso : ∀ l, (so l).Perm l)
    {score : α → List α → K} (hsc : SetScore score) (maxP : ℚ) :
    ∃ g0 : Graph α, ReachableSimple .pdag g0 ∧ g0.nodes = names ∧ (∀ u v, ¬ Conn g0 u v) ∧
      ((∃ g s gm sm M, (∀ n, M ≤ n → fit n so maxP score names = .ok (g, s)) ∧ DU g ∧ g.nodeList = names ∧
          Relation.ReflTransGen (InsertRound so maxP score) (g0, (names.map (fun v => score v [])).sum) (gm, sm) ∧
          InsertOptimal maxP score gm ∧ Relation.ReflTransGen (DeleteRound so score) (gm, sm) (g, s) ∧
          DeleteOptimal score g) ∨
       ((∀ n x, fit n so maxP score names ≠ .ok x) ∧ ∃ t,
          (Relation.ReflTransGen (InsertRound so maxP score) (g0, (names.map (fun v => score v [])).sum) t ∧
            InsertStuck maxP score t.1) ∨
          ∃ m, Relation.ReflTransGen (InsertRound so maxP score) (g0, (names.map (fun v => score v [])).sum) m ∧
            InsertOptimal maxP score m.1 ∧ Relation.ReflTransGen (DeleteRound so score) m t ∧ DeleteStuck score t.1)) := by
  obtain ⟨gi, ei⟩ := (init_ok_iff .pdag names).2 hN
  obtain ⟨g0, e0, d0, n0, c0⟩ := complete_init ei hso (le_refl names.length)
  have es := scoreG_init ei score
  refine ⟨g0, d0.rs, n0, c0, ?_⟩
  set S := (names.map (fun v => score v [])).sum with hS
  let B := names.length + vC2Bound names.length + (names.length * names.length + 1)
  have step : ∀ n, fit (B + n) so maxP score names = (do
      let a ← greedyLoop (forwardPass (B + n) maxP score) insertOp (complete (B + n) so) (B + n) ⟨g0, S, fun _ => []⟩
      let b ← greedyLoop (backwardPass so score) deleteOp (complete (B + n) so) (B + n) a
      pure (b.graph, b.score)) := by
    intro n
    unfold fit
    rw [ei]
    simp only [bind, Except.bind]
    rw [es]
    simp only
    rw [complete_le (by omega) so gi g0 e0]
  have main : ∀ n, (∃ g s gm sm, fit (B + n) so maxP score names = .ok (g, s) ∧ DU g ∧ g.nodeList = names ∧
      Relation.ReflTransGen (InsertRound so maxP score) (g0, S) (gm, sm) ∧ InsertOptimal maxP score gm ∧
      Relation.ReflTransGen (DeleteRound so score) (gm, sm) (g, s) ∧ DeleteOptimal score g) ∨
      (fit (B + n) so maxP score names = .error .fuel ∧ ∃ t,
          (Relation.ReflTransGen (InsertRound so maxP score) (g0, S) t ∧ InsertStuck maxP score t.1) ∨
          ∃ m, Relation.ReflTransGen (InsertRound so maxP score) (g0, S) m ∧ InsertOptimal maxP score m.1 ∧
            Relation.ReflTransGen (DeleteRound so score) m t ∧ DeleteStuck score t.1) := by
    intro n
    rw [step n]
    rcases forwardLoop_ok hso hsc maxP names (n := B + n) (m := B + n) (by omega) (by omega) ⟨g0, S, fun _ => []⟩ d0 n0
      (fun j e he => by simp at he) (by omega) with ⟨a, ea, ⟨da, na⟩, ra, ta, oa⟩ | ⟨ea, t, ta, oa⟩
    · rw [ea]
      simp only [bind, Except.bind]
      rcases backwardLoop_ok hso hsc names (n := B + n) (m := B + n) (by omega) a da na ra (by omega) with
        ⟨b, eb, ⟨db, nb⟩, rb, tb, ob⟩ | ⟨eb, t, tb, ob⟩
      · rw [eb]
        exact Or.inl ⟨_, _, _, _, rfl, db, nb, ta, oa, tb, ob⟩
      · rw [eb]
        exact Or.inr ⟨rfl, t, Or.inr ⟨_, ta, oa, tb, ob⟩⟩
    · rw [ea]
      exact Or.inr ⟨rfl, t, Or.inl ⟨ta, oa⟩⟩
  by_cases hx : ∃ n x, fit n so maxP score names = .ok x
  · left
    obtain ⟨n, x, e⟩ := hx
    have e' := fit_le (show n ≤ B + n by omega) so maxP score names x e
    rcases main n with ⟨g, s, gm, sm, k, r⟩ | ⟨k, _⟩
    · exact ⟨g, s, gm, sm, B + n, fun m hm => fit_le hm so maxP score names _ k, r⟩
    · rw [e'] at k; cases k
  · right
    refine ⟨fun n x e => hx ⟨n, x, e⟩, ?_⟩
    rcases main 0 with ⟨g, s, gm, sm, k, r⟩ | ⟨k, r⟩
    · exact absurd ⟨_, _, k⟩ hx
    · exact r

end GES
end Cdmir
