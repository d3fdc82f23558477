import Verif.Model.Dag2Cpdag
import Verif.Spec.Search
import Verif.Lemmas.Rule0

/-! Skeletons, separating-set tables, and fold lemmas used by `dag2cpdag` and the adjacency searches. -/

namespace Cdmir

/-- Outcome of a computation: a value satisfying `Q` or an exception satisfying `F`. -/
def Ends {σ : Type} (Q : σ → Prop) (F : Err → Prop) : Except Err σ → Prop
  | .ok s => Q s
  | .error e => F e

theorem Ends.bind {σ τ : Type} {Q : σ → Prop} {R : τ → Prop} {F : Err → Prop} {m : Except Err σ} {f : σ → Except Err τ}
    (h : Ends Q F m) (hf : ∀ s, Q s → Ends R F (f s)) : Ends R F (m >>= f) := by
  cases m with
  | error e => exact h
  | ok s => exact hf s h

theorem Ends.mono {σ : Type} {Q R : σ → Prop} {F G : Err → Prop} {m : Except Err σ} (h : Ends Q F m)
    (hq : ∀ s, Q s → R s) (hf : ∀ e, F e → G e) : Ends R G m := by
  cases m with
  | error e => exact hf e h
  | ok s => exact hq s h

theorem Ends.ok {σ : Type} {Q : σ → Prop} {F : Err → Prop} {m : Except Err σ} (h : Ends Q F m) (hf : ∀ e, ¬ F e) : OkP Q m := by
  cases m with
  | error e => exact absurd h (hf e)
  | ok s => exact ⟨s, rfl, h⟩

theorem foldlM_ends_aux {σ β : Type} {P : List β → σ → Prop} {F : Err → Prop} {f : σ → β → Except Err σ} (l : List β) :
    ∀ (pre : List β) (s : σ), P pre s →
      (∀ p x s, (∃ t, pre ++ l = p ++ x :: t) → P p s → Ends (P (p ++ [x])) F (f s x)) →
      Ends (P (pre ++ l)) F (l.foldlM f s) := by
  induction l with
  | nil => intro pre s hp _; rw [List.append_nil]; exact hp
  | cons x t ih =>
    intro pre s hp h
    rw [List.foldlM_cons]
    refine Ends.bind (h pre x s ⟨t, rfl⟩ hp) (fun s' hs' => ?_)
    have := ih (pre ++ [x]) s' hs' (fun p y s ⟨t', ht⟩ => h p y s ⟨t', by rw [← ht]; simp⟩)
    rwa [List.append_assoc] at this

/-- Loop invariant indexed by the part of the list already processed. -/
theorem foldlM_ends {σ β : Type} {P : List β → σ → Prop} {F : Err → Prop} {f : σ → β → Except Err σ} (l : List β) (s : σ)
    (h0 : P [] s) (h : ∀ p x s, (∃ t, l = p ++ x :: t) → P p s → Ends (P (p ++ [x])) F (f s x)) :
    Ends (P l) F (l.foldlM f s) := by
  have := foldlM_ends_aux (P := P) (F := F) (f := f) l [] s h0 (by simpa using h)
  simpa using this

namespace Graph
open Spec
variable {α : Type} [DecidableEq α] {g g' : Graph α} {N : List α} {K : α → α → Prop}

/-- An undirected graph with node list `N` and adjacency `K`: proof device. -/
structure UG (N : List α) (K : α → α → Prop) (g : Graph α) : Prop where
  rs : ReachableSimple .pdag g
  nodes : g.nodeList = N
  conn : ∀ u v, Conn g u v ↔ K u v
  und : ∀ u v, Conn g u v → Und g u v

theorem _root_.Cdmir.ReachableSimple.toReachable {k : Kind} (h : ReachableSimple k g) : Reachable k g := by
  obtain ⟨l, g0, ops, h1, _, h2⟩ := h
  exact ⟨l, g0, ops, h1, h2⟩

theorem _root_.Cdmir.Reachable.good' {k : Kind} (h : Reachable k g) : g.Good ∧ g.kind = k := by
  obtain ⟨l, g0, ops, h1, rfl⟩ := h
  have h0 := init_good h1
  have := run_good h0.1 ops
  exact ⟨this.1, this.2.trans h0.2⟩

theorem UG.pg (h : UG N K g) : g.PG := ⟨h.rs.toReachable.good'.1, h.rs.toReachable.good'.2⟩

theorem UG.congr {K' : α → α → Prop} (h : UG N K g) (hk : ∀ u v, K u v ↔ K' u v) : UG N K' g :=
  ⟨h.rs, h.nodes, fun u v => (h.conn u v).trans (hk u v), h.und⟩

theorem UG.nodup (h : UG N K g) : N.Nodup := by rw [← h.nodes]; exact h.pg.wf.nodup

theorem UG.mem (h : UG N K g) {u v : α} (hk : K u v) : u ∈ N ∧ v ∈ N := by
  have := Conn.mem h.pg.wf ((h.conn u v).2 hk)
  rwa [h.nodes] at this

theorem UG.symm (h : UG N K g) {u v : α} (hk : K u v) : K v u :=
  (h.conn v u).1 (((h.conn u v).2 hk).symm h.pg.wf)

theorem UG.mark (h : UG N K g) (u v : α) : (g.mark u v).isSome ↔ K u v := by
  rw [← conn_iff h.pg.wf]; exact h.conn u v

open Classical in
theorem UG.isConnected (h : UG N K g) {u v : α} (hu : u ∈ N) (hv : v ∈ N) : g.isConnected u v = .ok (decide (K u v)) := by
  rw [ic_dec h.pg.wf (by rw [h.nodes]; exact hu) (by rw [h.nodes]; exact hv)]
  simp only [h.conn u v]

theorem UG.mem_nbrs (h : UG N K g) (u v : α) : v ∈ g.nbrs u ↔ K u v := by
  rw [Graph.mem_nbrs, h.mark]

theorem UG.remove (h : UG N K g) {u v : α} (hu : u ∈ N) (hv : v ∈ N) :
    ∃ g', g.removeEdge u v = .ok g' ∧ UG N (fun a b => K a b ∧ ¬ (a = u ∧ b = v) ∧ ¬ (a = v ∧ b = u)) g' := by
  have hw := h.pg.wf
  have hu' : u ∈ g.nodeList := by rw [h.nodes]; exact hu
  have hv' : v ∈ g.nodeList := by rw [h.nodes]; exact hv
  have e := removeEdge_ok hw hu' hv'
  have hvia := Via.removeEdge e
  have hm : ∀ a b, (if (g.mark u v).isSome then g.drop u v else g).mark a b =
      if (a = u ∧ b = v) ∨ (a = v ∧ b = u) then none else g.mark a b := by
    intro a b
    by_cases hs : (g.mark u v).isSome
    · rw [if_pos hs, mark_drop hw]
    · rw [if_neg hs]
      split_ifs with c
      · have hs' : ¬ (g.mark v u).isSome := by rwa [hw.symm_iff u v] at hs
        rcases c with ⟨rfl, rfl⟩ | ⟨rfl, rfl⟩
        · simpa using hs
        · simpa using hs'
      · rfl
  have hpg := hvia.PG h.pg
  refine ⟨_, e, hvia.reachableSimple h.rs, ?_, ?_, ?_⟩
  · rw [← h.nodes]; split_ifs <;> rfl
  · intro a b
    rw [conn_iff hpg.wf, hm, ← h.mark a b]
    split_ifs with c
    · simp; tauto
    · simp; tauto
  · intro a b hc
    rw [conn_iff hpg.wf, hm] at hc
    split_ifs at hc with c
    · simp at hc
    · have := (und_iff hw a b).1 (h.und a b ((conn_iff hw a b).2 hc))
      rw [und_iff hpg.wf, hm, hm, if_neg c, if_neg (by tauto)]
      exact this

theorem createComplete_ok {g0 : Graph α} (h0 : Graph.init .pdag N = .ok g0) :
    ∃ g, g0.createCompleteUndirectedGraph = .ok g ∧ UG N (fun u v => u ∈ N ∧ v ∈ N ∧ u ≠ v) g := by
  obtain ⟨hw0, hn0, hk0, hm0⟩ := init_WF h0
  have hnd : N.Nodup := hn0 ▸ hw0.nodup
  have hrs0 : ReachableSimple .pdag g0 := ⟨N, g0, [], h0, by simp, rfl⟩
  have key : Ends (fun g => UG N (fun u v => (u, v) ∈ pairs N ∨ (v, u) ∈ pairs N) g) (fun _ => False)
      (g0.createCompleteUndirectedGraph) := by
    unfold createCompleteUndirectedGraph nodes
    rw [hn0]
    refine foldlM_ends (P := fun p g => UG N (fun u v => (u, v) ∈ p ∨ (v, u) ∈ p) g) _ _ ?_ ?_
    · refine ⟨hrs0, hn0, ?_, ?_⟩
      · intro u v; rw [conn_iff hw0, hm0]; simp
      · intro u v; rw [conn_iff hw0, hm0]; simp
    · rintro p ⟨a, b⟩ g ⟨t, ht⟩ hg
      have hmem : (a, b) ∈ pairs N := by rw [ht]; simp
      have hne := mem_pairs_ne hnd hmem
      have hab := mem_pairs_mem hmem
      have hndp := pairs_nodup hnd
      have hnot : g.mark a b = none := by
        rw [← Option.not_isSome_iff_eq_none, hg.mark a b]
        rintro (h | h)
        · rw [ht] at hndp
          exact (List.nodup_append.1 hndp).2.2 _ h _ (by simp) rfl
        · exact pairs_asymm hnd hmem (by rw [ht]; simp [h])
      have e : g.addEdge ⟨a, b, .tail, .tail⟩ = .ok (g.put ⟨a, b, .tail, .tail⟩) :=
        addEdge_ok hg.pg.wf (by rw [hg.pg.kind]; simp [marksOk]) (by rw [hg.nodes]; exact hab.1)
          (by rw [hg.nodes]; exact hab.2) (Or.inr hnot)
      have hvia := Via.addEdge (e := ⟨a, b, .tail, .tail⟩) hne e
      have hpg := hvia.PG hg.pg
      show Ends _ _ (g.addEdge _)
      rw [e]
      refine ⟨hvia.reachableSimple hg.rs, hg.nodes, ?_, ?_⟩
      · intro u v
        rw [conn_iff hpg.wf, mark_put]
        simp only [List.mem_append, List.mem_singleton, Prod.mk.injEq]
        split_ifs with c1 c2
        · simp; tauto
        · simp; tauto
        · rw [hg.mark]; tauto
      · intro u v hc
        rw [conn_iff hpg.wf, mark_put] at hc
        rw [und_iff hpg.wf, mark_put, mark_put]
        simp only at hc ⊢
        by_cases c1 : u = b ∧ v = a
        · simp [c1, hne]
        · by_cases c2 : u = a ∧ v = b
          · simp [c2, hne]
          · rw [if_neg c1, if_neg c2] at hc
            rw [if_neg c1, if_neg c2, if_neg (by tauto), if_neg (by tauto)]
            exact (und_iff hg.pg.wf u v).1 (hg.und u v ((conn_iff hg.pg.wf u v).2 hc))
  obtain ⟨g, e, h⟩ := key.ok (fun _ h => h)
  refine ⟨g, e, h.congr (fun u v => ?_)⟩
  constructor
  · rintro (h | h)
    · exact ⟨(mem_pairs_mem h).1, (mem_pairs_mem h).2, mem_pairs_ne hnd h⟩
    · exact ⟨(mem_pairs_mem h).2, (mem_pairs_mem h).1, (mem_pairs_ne hnd h).symm⟩
  · rintro ⟨h1, h2, h3⟩
    exact pairs_complete h1 h2 h3

theorem dget_sepInit (hN : N.Nodup) (a b : α) :
    dget (sepInit N) (a, b) = if a ∈ N ∧ b ∈ N ∧ a ≠ b then some [] else none := by
  unfold sepInit
  rw [dget_foldl_dset]
  simp only [mem_perms2 hN]
  rfl

theorem sepOf_init (hN : N.Nodup) : SepOf N (fun _ _ _ => False) (sepInit N) := by
  intro a ha b hb hab
  refine ⟨[], by rw [dget_sepInit hN, if_pos ⟨ha, hb, hab⟩], by simp⟩

theorem _root_.Cdmir.Spec.SepOf.congr {A A' : α → α → List α → Prop} {sep : Sep α} (h : SepOf N A sep)
    (hA : ∀ u v z, A u v z ↔ A' u v z) : SepOf N A' sep := by
  have : A = A' := by funext u v z; exact propext (hA u v z)
  exact this ▸ h

theorem sepAdd_ok {A : α → α → List α → Prop} {sep : Sep α} (h : SepOf N A sep) {u v : α} (hu : u ∈ N) (hv : v ∈ N)
    (huv : u ≠ v) (z : List α) :
    ∃ sep', sepAdd sep u v z = .ok sep' ∧ SepOf N (fun a b y => A a b y ∨ (a = u ∧ b = v ∧ y = z)) sep' := by
  obtain ⟨s, hs, hs'⟩ := h u hu v hv huv
  obtain ⟨t, ht, ht'⟩ := h v hv u hu (Ne.symm huv)
  have e2 : dget (dset sep (u, v) (pyUnion s (pySet z))) (v, u) = some t := by
    rw [dget_dset, if_neg (by simp [huv]), ht]
  refine ⟨dset (dset sep (u, v) (pyUnion s (pySet z))) (v, u) (pyUnion t (pySet z)), ?_, ?_⟩
  · unfold sepAdd
    simp only [dgetE_of _ _ _ hs, bind, Except.bind, dgetE_of _ _ _ e2, pure, Except.pure]
  · intro a ha b hb hab
    rw [dget_dset, dget_dset]
    by_cases c1 : (v, u) = (a, b)
    · rw [if_pos c1]
      simp only [Prod.mk.injEq] at c1
      obtain ⟨rfl, rfl⟩ := c1
      refine ⟨_, rfl, fun w => ?_⟩
      rw [mem_pyUnion, mem_pySet, ht']
      constructor
      · rintro (⟨y, hy, hw⟩ | hw)
        · exact ⟨y, by tauto, hw⟩
        · exact ⟨z, by simp, hw⟩
      · rintro ⟨y, hy, hw⟩
        rcases hy with (hy | ⟨c, _⟩) | (hy | ⟨_, _, rfl⟩)
        · exact Or.inl ⟨y, Or.inl hy, hw⟩
        · exact absurd c.symm huv
        · exact Or.inl ⟨y, Or.inr hy, hw⟩
        · exact Or.inr hw
    · rw [if_neg c1]
      by_cases c2 : (u, v) = (a, b)
      · rw [if_pos c2]
        simp only [Prod.mk.injEq] at c2
        obtain ⟨rfl, rfl⟩ := c2
        refine ⟨_, rfl, fun w => ?_⟩
        rw [mem_pyUnion, mem_pySet, hs']
        constructor
        · rintro (⟨y, hy, hw⟩ | hw)
          · exact ⟨y, by tauto, hw⟩
          · exact ⟨z, by simp, hw⟩
        · rintro ⟨y, hy, hw⟩
          rcases hy with (hy | ⟨_, _, rfl⟩) | (hy | ⟨c, _⟩)
          · exact Or.inl ⟨y, Or.inl hy, hw⟩
          · exact Or.inr hw
          · exact Or.inl ⟨y, Or.inr hy, hw⟩
          · exact absurd c.symm huv
      · rw [if_neg c2]
        obtain ⟨r, hr, hr'⟩ := h a ha b hb hab
        refine ⟨r, hr, fun w => ?_⟩
        rw [hr']
        simp only [Prod.mk.injEq] at c1 c2
        constructor
        · rintro ⟨y, hy, hw⟩; exact ⟨y, by tauto, hw⟩
        · rintro ⟨y, hy, hw⟩
          refine ⟨y, ?_, hw⟩
          rcases hy with (hy | hy) | (hy | hy)
          · exact Or.inl hy
          · exact absurd ⟨hy.1.symm, hy.2.1.symm⟩ c2
          · exact Or.inr hy
          · exact absurd ⟨hy.2.1.symm, hy.1.symm⟩ c1

end Graph
end Cdmir
