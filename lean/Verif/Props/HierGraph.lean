import Verif.Model.HierGraph
import Verif.Lemmas.Dict
import Mathlib.Logic.Relation
import Mathlib.Data.List.Perm.Basic

/-! C99 and C100: the graph that MakeGraph.py draws. -/

set_option linter.unusedSectionVars false

namespace Cdmir.Hier

variable {V : Type} [DecidableEq V]

/-- The children of `L` in an index. -/
def kids (d : Dict V (List V)) (L : V) : List V := (dget d L).getD []

theorem ex_cons {β : Type} {p : β → Prop} {a : β} {l : List β} : (∃ x ∈ a :: l, p x) ↔ p a ∨ ∃ x ∈ l, p x := by simp

theorem addNode_edges (g : Drawn V) (v : V) : (g.addNode v).edges = g.edges := by
  unfold Drawn.addNode
  split <;> rfl

theorem addNode_nodes (g : Drawn V) (v x : V) : x ∈ (g.addNode v).nodes ↔ x ∈ g.nodes ∨ x = v := by
  unfold Drawn.addNode
  split
  · constructor
    · exact Or.inl
    · rintro (h | rfl) <;> assumption
  · simp

theorem addEdge_edges (g : Drawn V) (u v : V) (e : V × V) : e ∈ (g.addEdge u v).edges ↔ e ∈ g.edges ∨ e = (u, v) := by
  unfold Drawn.addEdge
  simp only
  split
  · rename_i h
    rw [addNode_edges, addNode_edges] at h ⊢
    constructor
    · exact Or.inl
    · rintro (h | rfl) <;> assumption
  · simp [addNode_edges]

theorem addEdge_nodes (g : Drawn V) (u v x : V) : x ∈ (g.addEdge u v).nodes ↔ x ∈ g.nodes ∨ x = u ∨ x = v := by
  unfold Drawn.addEdge
  simp only
  split <;> simp [addNode_nodes, or_assoc]

theorem draw_fold (L : V) (l : List V) (g : Drawn V) :
    (∀ e, e ∈ (l.foldl (fun g w => g.addEdge L w) g).edges ↔ e ∈ g.edges ∨ ∃ w ∈ l, e = (L, w)) ∧
    (L ∈ g.nodes → ∀ x, x ∈ (l.foldl (fun g w => g.addEdge L w) g).nodes ↔ x ∈ g.nodes ∨ x ∈ l) := by
  induction l generalizing g with
  | nil => simp
  | cons w l ih =>
    have := ih (g.addEdge L w)
    refine ⟨fun e => ?_, fun hL x => ?_⟩
    · rw [List.foldl_cons, this.1, addEdge_edges]
      simp [or_assoc]
    · rw [List.foldl_cons, this.2 ((addEdge_nodes _ _ _ _).2 (.inl hL)), addEdge_nodes]
      constructor
      · rintro ((h | rfl | rfl) | h)
        · exact .inl h
        · exact .inl hL
        · exact .inr (by simp)
        · exact .inr (by simp [h])
      · rintro (h | h)
        · exact .inl (.inl h)
        · rcases List.mem_cons.1 h with rfl | h
          · exact .inl (.inr (.inr rfl))
          · exact .inr h

theorem draw_all (latent : Dict V (List V)) (g : Drawn V) :
    (∀ e, e ∈ (latent.foldl drawLatent g).edges ↔ e ∈ g.edges ∨ ∃ q ∈ latent, q.1 = e.1 ∧ e.2 ∈ q.2) ∧
    (∀ x, x ∈ (latent.foldl drawLatent g).nodes ↔ x ∈ g.nodes ∨ ∃ q ∈ latent, x = q.1 ∨ x ∈ q.2) := by
  induction latent generalizing g with
  | nil => simp
  | cons q latent ih =>
    have := ih (drawLatent g q)
    have hd := draw_fold q.1 q.2 (g.addNode q.1)
    refine ⟨fun e => ?_, fun x => ?_⟩
    · rw [List.foldl_cons, this.1]
      unfold drawLatent
      rw [hd.1, addNode_edges, or_assoc, ex_cons]
      refine or_congr Iff.rfl (or_congr ?_ Iff.rfl)
      constructor
      · rintro ⟨w, hw, rfl⟩
        exact ⟨rfl, hw⟩
      · rintro ⟨h1, h2⟩
        exact ⟨e.2, h2, Prod.ext h1.symm rfl⟩
    · rw [List.foldl_cons, this.2]
      unfold drawLatent
      rw [hd.2 ((addNode_nodes _ _ _).2 (.inr rfl)), addNode_nodes, or_assoc, or_assoc, ex_cons, or_assoc]

theorem pairs_fold (share : List (List V)) (l : List (V × V)) (g : Drawn V) (e : V × V) :
    e ∈ (l.foldl (fun g e => if oneFactor share e.1 e.2 then g else g.addEdge e.1 e.2) g).edges ↔
      e ∈ g.edges ∨ (e ∈ l ∧ oneFactor share e.1 e.2 = false) := by
  induction l generalizing g with
  | nil => simp
  | cons a l ih =>
    rw [List.foldl_cons, ih]
    by_cases ha : oneFactor share a.1 a.2 = true
    · rw [if_pos ha]
      constructor
      · rintro (h | h)
        · exact .inl h
        · exact .inr ⟨by simp [h.1], h.2⟩
      · rintro (h | ⟨h, h'⟩)
        · exact .inl h
        · rcases List.mem_cons.1 h with rfl | h
          · rw [ha] at h'
            cases h'
          · exact .inr ⟨h, h'⟩
    · rw [if_neg ha, addEdge_edges]
      have ha' := Bool.eq_false_iff.2 ha
      constructor
      · rintro ((h | rfl) | h)
        · exact .inl h
        · exact .inr ⟨by simp, ha'⟩
        · exact .inr ⟨by simp [h.1], h.2⟩
      · rintro (h | ⟨h, h'⟩)
        · exact .inl (.inl h)
        · rcases List.mem_cons.1 h with rfl | h
          · exact .inl (.inr rfl)
          · exact .inr ⟨h, h'⟩

theorem mem_pairs_sublist {l : List V} {a b : V} : (a, b) ∈ pairs l ↔ [a, b].Sublist l := by
  induction l with
  | nil => simp [pairs]
  | cons x l ih =>
    unfold pairs
    rw [List.mem_append, List.mem_map, ih]
    constructor
    · rintro (⟨y, hy, h⟩ | h)
      · cases h
        exact (List.singleton_sublist.2 hy).cons_cons _
      · exact h.cons _
    · intro h
      cases h with
      | cons _ h => exact .inr h
      | cons_cons _ h => exact .inl ⟨b, List.singleton_sublist.1 h, rfl⟩

/-- The edges of the graph that `Make_graph` draws. -/
theorem makeGraph_edges {latent : Dict V (List V)} (hk : (dkeys latent).Nodup) (order : List V) (share : List (List V)) (u w : V) :
    (u, w) ∈ (makeGraph latent order share).edges ↔
      w ∈ kids latent u ∨ ([u, w].Sublist order ∧ ¬ ∃ p ∈ share, u ∈ p ∧ w ∈ p) := by
  unfold makeGraph
  rw [pairs_fold, (draw_all latent {}).1, mem_pairs_sublist]
  have h1 : ((u, w) ∈ ({} : Drawn V).edges ∨ ∃ q ∈ latent, q.1 = u ∧ w ∈ q.2) ↔ w ∈ kids latent u := by
    constructor
    · rintro (h | ⟨q, hq, rfl, hw⟩)
      · cases h
      · unfold kids
        have : dget latent q.1 = some q.2 := by
          clear hw
          induction latent with
          | nil => cases hq
          | cons e t ih =>
            obtain ⟨k, v⟩ := e
            rw [dget_cons]
            have hk' : k ∉ dkeys t ∧ (dkeys t).Nodup := List.nodup_cons.1 hk
            rcases List.mem_cons.1 hq with rfl | hq
            · simp
            · have : q.1 ∈ dkeys t := List.mem_map.2 ⟨q, hq, rfl⟩
              rw [if_neg, ih hk'.2 hq]
              rintro rfl
              exact hk'.1 this
        rw [this]
        exact hw
    · intro h
      unfold kids at h
      rcases hd : dget latent u with _ | v
      · rw [hd] at h
        cases h
      · rw [hd] at h
        refine .inr ⟨(u, v), ?_, rfl, h⟩
        clear h hk
        induction latent with
        | nil => cases hd
        | cons e t ih =>
          obtain ⟨k, v'⟩ := e
          rw [dget_cons] at hd
          split at hd
          · rename_i hk
            cases hd
            rw [hk]
            exact List.mem_cons_self
          · exact List.mem_cons_of_mem _ (ih hd)
  rw [h1]
  refine or_congr Iff.rfl (and_congr Iff.rfl ?_)
  unfold oneFactor
  rw [List.any_eq_false]
  simp

theorem addChild_kids {order : List V → List V} (ho : ∀ l, (order l).Perm l) (L : V) (d : Dict V (List V)) (w : V) :
    dkeys (addChild order L d w) = dkeys d ∧
      ∀ M x, x ∈ kids (addChild order L d w) M ↔ x ∈ kids d M ∨ (M ∈ dkeys d ∧ M = L ∧ x = w) := by
  unfold addChild
  rcases hd : dget d L with _ | clu
  · refine ⟨rfl, fun M x => ?_⟩
    have := (dget_none_iff d L).1 hd
    constructor
    · exact Or.inl
    · rintro (h | ⟨h1, rfl, _⟩)
      · exact h
      · exact absurd h1 this
  · have hL : L ∈ dkeys d := (mem_dkeys_iff d L).2 (by rw [hd]; rfl)
    by_cases hw : w ∈ clu
    · simp only [hw, if_true]
      refine ⟨trivial, fun M x => ?_⟩
      constructor
      · exact Or.inl
      · rintro (h | ⟨h1, rfl, rfl⟩)
        · exact h
        · unfold kids
          rw [hd]
          exact hw
    · simp only [if_neg hw]
      refine ⟨by rw [dkeys_dset, if_pos hL], fun M x => ?_⟩
      unfold kids
      rw [dget_dset]
      by_cases hM : M = L
      · subst hM
        simp [hd, (ho _).mem_iff, hL]
      · rw [if_neg (fun h => hM h.symm)]
        simp [hM]

theorem childFold_kids {order : List V → List V} (ho : ∀ l, (order l).Perm l) (L : V) (l : List V) (d : Dict V (List V)) :
    dkeys (l.foldl (addChild order L) d) = dkeys d ∧
      ∀ M x, x ∈ kids (l.foldl (addChild order L) d) M ↔ x ∈ kids d M ∨ (M ∈ dkeys d ∧ M = L ∧ x ∈ l) := by
  induction l generalizing d with
  | nil => simp
  | cons w l ih =>
    obtain ⟨h1, h2⟩ := addChild_kids ho L d w
    obtain ⟨h3, h4⟩ := ih (addChild order L d w)
    refine ⟨h3.trans h1, fun M x => ?_⟩
    rw [List.foldl_cons, h4, h2, h1, List.mem_cons]
    tauto

theorem tranCluster_kids {order : List V → List V} (ho : ∀ l, (order l).Perm l) (C : List V) (d : Dict V (List V)) :
    dkeys (tranCluster order C d) = dkeys d ∧
      ∀ M x, x ∈ kids (tranCluster order C d) M ↔ x ∈ kids d M ∨ (M ∈ dkeys d ∧ [M, x].Sublist C) := by
  induction C generalizing d with
  | nil => simp [tranCluster]
  | cons L rest ih =>
    unfold tranCluster
    obtain ⟨h1, h2⟩ := childFold_kids ho L rest d
    have key : ∀ M x, [M, x].Sublist (L :: rest) ↔ (M = L ∧ x ∈ rest) ∨ [M, x].Sublist rest := by
      intro M x
      constructor
      · intro h
        cases h with
        | cons _ h => exact .inr h
        | cons_cons _ h => exact .inl ⟨rfl, List.singleton_sublist.1 h⟩
      · rintro (⟨rfl, h⟩ | h)
        · exact (List.singleton_sublist.2 h).cons_cons _
        · exact h.cons _
    by_cases hL : L ∈ dkeys d
    · rw [if_pos hL]
      obtain ⟨h3, h4⟩ := ih (rest.foldl (addChild order L) d)
      refine ⟨h3.trans h1, fun M x => ?_⟩
      rw [h4, h2, h1, key]
      tauto
    · rw [if_neg hL]
      obtain ⟨h3, h4⟩ := ih d
      refine ⟨h3, fun M x => ?_⟩
      rw [h4, key]
      constructor
      · tauto
      · rintro (h | ⟨h, ⟨rfl, _⟩ | h'⟩)
        · exact .inl h
        · exact absurd h hL
        · exact .inr ⟨h, h'⟩

/-- C99. `tranImpureToLatentIndex` keeps the latent variables and their children. It adds exactly the elements that come after a latent variable in an
impure cluster. -/
theorem c99_index {order : List V → List V} (ho : ∀ l, (order l).Perm l) (latent : Dict V (List V)) (impures : List (List V)) :
    dkeys (tranImpure order latent impures) = dkeys latent ∧
      ∀ L x, x ∈ kids (tranImpure order latent impures) L ↔
        x ∈ kids latent L ∨ (L ∈ dkeys latent ∧ ∃ C ∈ impures, [L, x].Sublist C) := by
  unfold tranImpure
  induction impures generalizing latent with
  | nil => simp
  | cons C l ih =>
    obtain ⟨h1, h2⟩ := tranCluster_kids ho C latent
    obtain ⟨h3, h4⟩ := ih (tranCluster order C latent)
    refine ⟨h3.trans h1, fun M x => ?_⟩
    rw [List.foldl_cons, h4, h2, h1, ex_cons]
    tauto

/-- C99. The edges of the graph that `Make_graph_Impure` draws. -/
theorem c99_edges {order : List V → List V} (ho : ∀ l, (order l).Perm l) {latent : Dict V (List V)} (hk : (dkeys latent).Nodup)
    (impures : List (List V)) (u w : V) :
    (u, w) ∈ (makeGraphImpure order latent impures).edges ↔
      w ∈ kids latent u ∨ (u ∈ dkeys latent ∧ ∃ C ∈ impures, [u, w].Sublist C) := by
  obtain ⟨h1, h2⟩ := c99_index ho latent impures
  unfold makeGraphImpure
  rw [makeGraph_edges (by rw [h1]; exact hk), h2]
  simp

/-- C99. The nodes of that graph: the latent variables and their children. -/
theorem c99_nodes (order : List V → List V) (latent : Dict V (List V)) (impures : List (List V)) (x : V) :
    x ∈ (makeGraphImpure order latent impures).nodes ↔ ∃ e ∈ tranImpure order latent impures, x = e.1 ∨ x ∈ e.2 := by
  unfold makeGraphImpure makeGraph
  have := (draw_all (tranImpure order latent impures) {}).2 x
  simpa [pairs] using this

/-- The index and the impure clusters of `main` in MakeGraph.py, with numbers for the names. -/
example : (makeGraphImpure id [(101, [19, 18, 103]), (102, [16, 17, 107]), (103, [13, 14, 15]), (107, [1, 2, 3]), (108, [105, 104, 101])]
    [[101, 103], [102, 107], [108, 102, 106]]).edges.filter (fun e => e.1 = 108) = [(108, 105), (108, 104), (108, 101), (108, 102), (108, 106)] := by
  decide +kernel

/-- No directed cycle. -/
def Acyclic (g : Drawn V) : Prop := ∀ v, ¬ Relation.TransGen (fun a b => (a, b) ∈ g.edges) v v

/-- The tetrad test of the example: `van` of the columns. -/
def cycVan (i j k l : Nat) : Bool :=
  (decide (i = 0) && decide (j = 1)) || (decide (i = 2) && decide (j = 3)) || (decide (i = 0) && decide (k = 1)) ||
    (decide (i = 2) && decide (k = 3) && decide (j ≠ 9)) || (decide (i = 8) && decide (j = 9) && decide (k ≠ 1) && decide (l ≠ 1) && decide (k ≠ 3) && decide (l ≠ 3))

def cycEnv : Env Nat Nat where
  van i j k l := .ok (cycVan i j k l)
  order l := l
  idxOrder l := l
  lname n := 100 + n
  rows := 10

def cycData : Frame Nat Nat := (List.range 10).map fun i => (i, i)

/-- C100 is false: the first pass learns two latent variables, 101 and 102. The second pass finds the impure cluster of both, and that 102 is the parent
of 101. The graph that is drawn at the end has the edge from 102 to 101, because of the index, and the edge from 101 to 102, because of the order
of the impure cluster. -/
theorem c100_false : ∃ s, run cycEnv cycData 3 { data := cycData } = .ok s ∧
    ¬ Acyclic (makeGraphImpure cycEnv.order s.latent s.impures) := by
  refine ⟨_, (by decide +kernel : run cycEnv cycData 3 { data := cycData } = .ok
    { data := [(4, 2), (5, 0), (6, 4), (7, 5), (8, 6), (9, 7), (102, 9)], pures := [[0, 1], [2, 3]],
      impures := [[101, 102], [4, 5, 6, 7, 8, 9, 102]], num := 3, latent := [(101, [2, 3]), (102, [0, 1, 101])] }), fun h => ?_⟩
  refine h 101 (.tail (.single (b := 102) ?_) ?_)
  · decide +kernel
  · decide +kernel

/-- C100, the part that holds: if there is a rank that falls along the index and along the impure clusters, then the graph has no cycle. Missing: that
the loop leaves such an index; `c100_false` shows that it need not. -/
theorem c100_partial {order : List V → List V} (ho : ∀ l, (order l).Perm l) {latent : Dict V (List V)} (hk : (dkeys latent).Nodup)
    {impures : List (List V)} (rank : V → Nat) (h1 : ∀ L x, x ∈ kids latent L → rank x < rank L)
    (h2 : ∀ C ∈ impures, C.Pairwise fun a b => a ∈ dkeys latent → rank b < rank a) : Acyclic (makeGraphImpure order latent impures) := by
  have key : ∀ a b, (a, b) ∈ (makeGraphImpure order latent impures).edges → rank b < rank a := by
    intro a b h
    rcases (c99_edges ho hk impures a b).1 h with h | ⟨ha, C, hC, hs⟩
    · exact h1 a b h
    · have := (h2 C hC).sublist hs
      exact List.rel_of_pairwise_cons this List.mem_cons_self ha
  intro v h
  have : ∀ a b, Relation.TransGen (fun a b => (a, b) ∈ (makeGraphImpure order latent impures).edges) a b → rank b < rank a := by
    intro a b h
    induction h with
    | single h => exact key _ _ h
    | tail _ h ih => exact lt_trans (key _ _ h) ih
  exact lt_irrefl _ (this v v h)

/-- An index of two levels with an impure cluster. -/
example : Acyclic (makeGraphImpure id [(101, [0, 1]), (102, [2, 3]), (103, [101, 102, 4])] [[102, 101], [103, 102]]) := by
  refine c100_partial (fun l => List.Perm.refl l) (by decide) (fun v => if v = 103 then 3 else if v = 102 then 2 else if v = 101 then 1 else 0) ?_ ?_
  · intro L x h
    unfold kids at h
    simp only [dget_cons, dget_nil] at h
    split_ifs at h <;> rename_i h1 <;> simp at h <;> aesop
  · decide

end Cdmir.Hier
