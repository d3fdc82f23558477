import Verif.Lemmas.DiGraph
import Mathlib.Data.Finset.Card
import Mathlib.Order.WellFounded

/-! Correctness of `topo_sort` (digraph.py L95-113). -/

namespace Cdmir
namespace Graph
variable {α : Type} [DecidableEq α] {g : Graph α}

theorem inDegree_ok (h : g.WF) {u : α} (hu : u ∈ g.nodeList) : g.inDegree u = .ok (g.pa u).length := by
  unfold inDegree; rw [getParents_ok h hu]; rfl

theorem outDegree_ok (h : g.WF) {u : α} (hu : u ∈ g.nodeList) : g.outDegree u = .ok (g.ch u).length := by
  unfold outDegree; rw [getChildren_ok h hu]; rfl

/-- The dictionaries of `topo_sort` as functions on the nodes: proof device. -/
structure TRep (g : Graph α) (s : Topo α) (f : α → Nat) (b : α → Bool) : Prop where
  found : ∀ k ∈ g.nodeList, dget s.found k = some (f k)
  vis : ∀ k ∈ g.nodeList, dget s.v k = some (b k)

theorem topoInit_ok (h : g.WF) (l : List α) (hl : ∀ x ∈ l, x ∈ g.nodeList) (hn : l.Nodup) (s : Topo α) (f : α → Nat)
    (b : α → Bool) (hr : TRep g s f b) :
    ∃ s' b', l.foldlM g.topoInit s = .ok s' ∧ TRep g s' f b' ∧
      s'.q = s.q ++ l.filter (fun x => (g.pa x).length = f x) ∧
      ∀ x, b' x = true ↔ b x = true ∨ (x ∈ l ∧ (g.pa x).length = f x) := by
  induction l generalizing s b with
  | nil => exact ⟨s, b, rfl, hr, by simp, by simp⟩
  | cons u t ih =>
    have hu := hl u (by simp)
    rw [List.nodup_cons] at hn
    have hstep : g.topoInit s u = if (g.pa u).length = f u then .ok { s with q := s.q ++ [u], v := dset s.v u true } else .ok s := by
      unfold topoInit
      rw [inDegree_ok h hu, dgetE_of _ _ _ (hr.found u hu)]
      rfl
    rw [List.foldlM_cons, hstep]
    by_cases hc : (g.pa u).length = f u
    · rw [if_pos hc]
      have hr' : TRep g { s with q := s.q ++ [u], v := dset s.v u true } f (fun x => if x = u then true else b x) := by
        refine ⟨hr.found, fun k hk => ?_⟩
        show dget (dset s.v u true) k = _
        rw [dget_dset]
        by_cases hku : u = k
        · simp [hku]
        · have : k ≠ u := fun h => hku h.symm
          simp [hku, this, hr.vis k hk]
      obtain ⟨s', b', h1, h2, h3, h4⟩ := ih (fun x hx => hl x (by simp [hx])) hn.2 _ _ hr'
      refine ⟨s', b', h1, h2, ?_, ?_⟩
      · rw [h3]; simp [hc]
      · intro x
        rw [h4]
        by_cases hxu : x = u
        · subst hxu; simp [hc]
        · simp [hxu]
    · rw [if_neg hc]
      obtain ⟨s', b', h1, h2, h3, h4⟩ := ih (fun x hx => hl x (by simp [hx])) hn.2 _ _ hr
      refine ⟨s', b', h1, h2, ?_, ?_⟩
      · rw [h3]; simp [hc]
      · intro x
        rw [h4]
        by_cases hxu : x = u
        · subst hxu; simp [hc]
        · simp [hxu]

theorem topoChild_ok (h : g.WF) (cs : List α) (hl : ∀ x ∈ cs, x ∈ g.nodeList) (hn : cs.Nodup) (s : Topo α) (f : α → Nat)
    (b : α → Bool) (hr : TRep g s f b) :
    ∃ s' b' N, cs.foldlM g.topoChild s = .ok s' ∧ TRep g s' (fun x => if x ∈ cs then f x + 1 else f x) b' ∧
      s'.q = s.q ++ N ∧ N.Nodup ∧ (∀ x, x ∈ N ↔ x ∈ cs ∧ b x = false ∧ (g.pa x).length = f x + 1) ∧
      ∀ x, b' x = true ↔ b x = true ∨ x ∈ N := by
  induction cs generalizing s f b with
  | nil => exact ⟨s, b, [], rfl, by simpa using hr, by simp, by simp, by simp, by simp⟩
  | cons c t ih =>
    have hc := hl c (by simp)
    rw [List.nodup_cons] at hn
    have hfound : ∀ k ∈ g.nodeList, dget (dset s.found c (f c + 1)) k = some (if k = c then f c + 1 else f k) := by
      intro k hk
      rw [dget_dset]
      by_cases hkc : c = k
      · simp [hkc]
      · have : k ≠ c := fun h => hkc h.symm
        simp [hkc, this, hr.found k hk]
    have hstep : g.topoChild s c =
        if b c = false ∧ (g.pa c).length = f c + 1 then
          .ok { found := dset s.found c (f c + 1), q := s.q ++ [c], v := dset s.v c true }
        else .ok { s with found := dset s.found c (f c + 1) } := by
      unfold topoChild
      have this : dgetE (dset s.found c (f c + 1)) c = .ok (f c + 1) := dgetE_of _ _ _ (by rw [hfound c hc]; simp)
      simp only [dgetE_of _ _ _ (hr.found c hc), dgetE_of _ _ _ (hr.vis c hc), inDegree_ok h hc, bind, Except.bind,
        pure, Except.pure, this]
      cases b c <;> simp
    rw [List.foldlM_cons, hstep]
    have hrest : ∀ (b1 : α → Bool) (s1 : Topo α), s1.found = dset s.found c (f c + 1) →
        (∀ k ∈ g.nodeList, dget s1.v k = some (b1 k)) →
        ∃ s' b' N, t.foldlM g.topoChild s1 = .ok s' ∧ TRep g s' (fun x => if x ∈ c :: t then f x + 1 else f x) b' ∧
          s'.q = s1.q ++ N ∧ N.Nodup ∧ (∀ x, x ∈ N ↔ x ∈ t ∧ b1 x = false ∧ (g.pa x).length = f x + 1) ∧
          ∀ x, b' x = true ↔ b1 x = true ∨ x ∈ N := by
      intro b1 s1 hs1 hv1
      obtain ⟨s', b', N, h1, h2, h3, h4, h5, h6⟩ := ih (fun x hx => hl x (by simp [hx])) hn.2 s1
        (fun k => if k = c then f c + 1 else f k) b1 ⟨by rw [hs1]; exact hfound, hv1⟩
      refine ⟨s', b', N, h1, ⟨?_, h2.vis⟩, h3, h4, ?_, h6⟩
      · intro k hk
        rw [h2.found k hk]
        by_cases hkc : k = c
        · subst hkc; simp [hn.1]
        · simp [hkc]
      · intro x
        rw [h5]
        constructor
        · rintro ⟨a1, a2, a3⟩
          have : x ≠ c := by rintro rfl; exact hn.1 a1
          simp only [this, ↓reduceIte] at a3
          exact ⟨a1, a2, a3⟩
        · rintro ⟨a1, a2, a3⟩
          have : x ≠ c := by rintro rfl; exact hn.1 a1
          simp only [this, ↓reduceIte]
          exact ⟨a1, a2, a3⟩
    by_cases hcond : b c = false ∧ (g.pa c).length = f c + 1
    · rw [if_pos hcond]
      obtain ⟨s', b', N, h1, h2, h3, h4, h5, h6⟩ := hrest (fun x => if x = c then true else b x)
        { found := dset s.found c (f c + 1), q := s.q ++ [c], v := dset s.v c true } rfl (by
          intro k hk
          show dget (dset s.v c true) k = _
          rw [dget_dset]
          by_cases hkc : c = k
          · simp [hkc]
          · have : k ≠ c := fun h => hkc h.symm
            simp [hkc, this, hr.vis k hk])
      refine ⟨s', b', c :: N, h1, h2, by rw [h3]; simp, ?_, ?_, ?_⟩
      · rw [List.nodup_cons]; exact ⟨fun hh => hn.1 ((h5 c).1 hh).1, h4⟩
      · intro x
        by_cases hxc : x = c
        · subst hxc; simp [hcond]
        · simp [hxc, h5]
      · intro x
        rw [h6]
        by_cases hxc : x = c
        · subst hxc; simp
        · simp [hxc]
    · rw [if_neg hcond]
      obtain ⟨s', b', N, h1, h2, h3, h4, h5, h6⟩ := hrest b { s with found := dset s.found c (f c + 1) } rfl hr.vis
      refine ⟨s', b', N, h1, h2, h3, h4, ?_, h6⟩
      intro x
      rw [h5]
      by_cases hxc : x = c
      · subst hxc; simp [hcond, hn.1]
      · simp [hxc]

/-- Loop invariant of the `while` loop of `topo_sort` (digraph.py L104-111). -/
structure TInv (g : Graph α) (s : Topo α) (out : List α) (b : α → Bool) : Prop where
  rep : TRep g s (fun k => ((g.pa k).filter (fun p => p ∈ out)).length) b
  nodup : (out ++ s.q).Nodup
  sub : ∀ k ∈ out ++ s.q, k ∈ g.nodeList
  seen : ∀ k, b k = true ↔ k ∈ out ++ s.q
  ready : ∀ k ∈ s.q, ∀ p ∈ g.pa k, p ∈ out
  all : ∀ k ∈ g.nodeList, (∀ p ∈ g.pa k, p ∈ out) → k ∈ out ++ s.q
  sorted : ∀ l k r, out = l ++ k :: r → ∀ p ∈ g.pa k, p ∈ l

theorem topoLoop_ok (h : g.DG) (n : Nat) (s : Topo α) (out : List α) (b : α → Bool) (hi : TInv g s out b)
    (hf : g.nodeList.length ≤ n + out.length) :
    ∃ out', g.topoLoop n s out = .ok out' ∧ out'.Nodup ∧ (∀ k ∈ out', k ∈ g.nodeList) ∧
      (∀ k ∈ g.nodeList, (∀ p ∈ g.pa k, p ∈ out') → k ∈ out') ∧
      (∀ l k r, out' = l ++ k :: r → ∀ p ∈ g.pa k, p ∈ l) := by
  induction n generalizing s out b with
  | zero =>
    cases hq : s.q with
    | nil =>
      refine ⟨out, ?_, ?_, ?_, ?_, hi.sorted⟩
      · rw [topoLoop, hq]; rfl
      · have := hi.nodup; rwa [hq, List.append_nil] at this
      · have := hi.sub; rwa [hq, List.append_nil] at this
      · have := hi.all; rwa [hq, List.append_nil] at this
    | cons u q =>
      exfalso
      have h1 : (out ++ s.q).length ≤ g.nodeList.length := List.Subperm.length_le (hi.nodup.subperm hi.sub)
      rw [hq] at h1
      simp only [List.length_append, List.length_cons] at h1
      omega
  | succ n ih =>
    cases hq : s.q with
    | nil =>
      refine ⟨out, ?_, ?_, ?_, ?_, hi.sorted⟩
      · rw [topoLoop, hq]; rfl
      · have := hi.nodup; rwa [hq, List.append_nil] at this
      · have := hi.sub; rwa [hq, List.append_nil] at this
      · have := hi.all; rwa [hq, List.append_nil] at this
    | cons u q =>
      have hsub := hi.sub
      have hnd := hi.nodup
      have hseen := hi.seen
      have hready := hi.ready
      have hall := hi.all
      rw [hq] at hsub hnd hseen hready hall
      have hu : u ∈ g.nodeList := hsub u (by simp)
      have huo : u ∉ out := by
        intro hh
        rw [List.nodup_append] at hnd
        exact hnd.2.2 u hh u (by simp) rfl
      obtain ⟨s', b', N, h1, h2, h3, h4, h5, h6⟩ := topoChild_ok h.wf (g.ch u) (fun x hx => ch_sub h.wf hx)
        (ch_nodup h.wf u) { s with q := q } _ b ⟨hi.rep.found, hi.rep.vis⟩
      have hcount : ∀ k, ((g.pa k).filter (fun p => p ∈ out ++ [u])).length =
          if k ∈ g.ch u then ((g.pa k).filter (fun p => p ∈ out)).length + 1 else ((g.pa k).filter (fun p => p ∈ out)).length := by
        intro k
        have gen : ∀ l : List α, l.Nodup → (l.filter (fun p => p ∈ out ++ [u])).length =
            if u ∈ l then (l.filter (fun p => p ∈ out)).length + 1 else (l.filter (fun p => p ∈ out)).length := by
          intro l hl
          induction l with
          | nil => simp
          | cons a t ih =>
            rw [List.nodup_cons] at hl
            have iht := ih hl.2
            rw [List.filter_cons, List.filter_cons]
            by_cases hau : a = u
            · subst hau
              rw [if_neg hl.1] at iht
              rw [if_pos (show decide (a ∈ out ++ [a]) = true by simp), if_neg (show ¬ decide (a ∈ out) = true by simpa using huo),
                if_pos (show a ∈ a :: t by simp), List.length_cons, iht]
            · have hua : u ≠ a := fun h => hau h.symm
              have hm : u ∈ a :: t ↔ u ∈ t := by simp [hua]
              by_cases hao : a ∈ out
              · rw [if_pos (show decide (a ∈ out ++ [u]) = true by simp [hao]), if_pos (show decide (a ∈ out) = true by simpa using hao), List.length_cons, List.length_cons, iht]
                by_cases hut : u ∈ t
                · rw [if_pos hut, if_pos (hm.2 hut)]
                · rw [if_neg hut, if_neg (fun hh => hut (hm.1 hh))]
              · rw [if_neg (show ¬ decide (a ∈ out ++ [u]) = true by simp [hao, hau]),
                  if_neg (show ¬ decide (a ∈ out) = true by simpa using hao), iht]
                by_cases hut : u ∈ t
                · rw [if_pos hut, if_pos (hm.2 hut)]
                · rw [if_neg hut, if_neg (fun hh => hut (hm.1 hh))]
        rw [gen _ (pa_nodup h.wf k)]
        have : u ∈ g.pa k ↔ k ∈ g.ch u := by rw [h.mem_pa, h.mem_ch]
        by_cases hk : k ∈ g.ch u
        · rw [if_pos (this.2 hk), if_pos hk]
        · rw [if_neg (fun hh => hk (this.1 hh)), if_neg hk]
      have hall_iff : ∀ (k : α) (o : List α), ((g.pa k).filter (fun p => decide (p ∈ o))).length = (g.pa k).length ↔ ∀ p ∈ g.pa k, p ∈ o := by
        intro k o
        rw [List.length_filter_eq_length_iff]
        simp
      have hinv : TInv g s' (out ++ [u]) b' := by
        refine ⟨⟨?_, h2.vis⟩, ?_, ?_, ?_, ?_, ?_, ?_⟩
        · intro k hk
          rw [h2.found k hk, hcount k]
        · rw [h3]
          have : (out ++ u :: q).Perm (out ++ [u] ++ q) := by simp
          rw [← List.append_assoc, List.nodup_append]
          refine ⟨by simpa using hnd, h4, ?_⟩
          rintro a ha c hc rfl
          have hb := ((h5 a).1 hc).2.1
          have : b a = true := (hseen a).2 (by simpa using ha)
          rw [this] at hb
          simp at hb
        · intro k hk
          rw [h3] at hk
          simp only [List.mem_append, List.mem_singleton] at hk
          rcases hk with (hk | rfl) | hk | hk
          · exact hsub k (by simp [hk])
          · exact hu
          · exact hsub k (by simp [hk])
          · exact ch_sub h.wf ((h5 k).1 hk).1
        · intro k
          rw [h6, hseen, h3]
          simp only [List.mem_append, List.mem_cons, or_assoc, List.not_mem_nil, or_false]
        · intro k hk p hp
          rw [h3] at hk
          rcases List.mem_append.1 hk with hk | hk
          · exact List.mem_append.2 (Or.inl (hready k (by simp [hk]) p hp))
          · obtain ⟨k1, k2, k3⟩ := (h5 k).1 hk
            refine (hall_iff k (out ++ [u])).1 ?_ p hp
            rw [hcount, if_pos k1, k3]
        · intro k hk hp
          rw [h3]
          by_cases hku : k ∈ g.ch u
          · by_cases hb : b k = true
            · have := (hseen k).1 hb
              simp only [List.mem_append, List.mem_cons] at this ⊢
              tauto
            · have := (hall_iff k (out ++ [u])).2 hp
              rw [hcount, if_pos hku] at this
              have : k ∈ N := (h5 k).2 ⟨hku, by simpa using hb, this.symm⟩
              simp [this]
          · have : ∀ p ∈ g.pa k, p ∈ out := by
              intro p hpp
              rcases List.mem_append.1 (hp p hpp) with hh | hh
              · exact hh
              · simp only [List.mem_singleton] at hh
                subst hh
                exact absurd ((h.mem_ch p k).2 ((h.mem_pa k p).1 hpp)) hku
            have := hall k hk this
            simp only [List.mem_append, List.mem_cons] at this ⊢
            tauto
        · intro l k r hlr p hp
          rcases List.eq_nil_or_concat r with rfl | ⟨r', z, rfl⟩
          · have := List.append_inj' hlr rfl
            obtain ⟨rfl, hk⟩ := this
            simp only [List.cons.injEq, and_true] at hk
            subst hk
            exact hready u (by simp) p hp
          · have e : out ++ [u] = (l ++ k :: r') ++ [z] := by rw [hlr]; simp
            have := List.append_inj' e rfl
            exact hi.sorted l k r' this.1 p hp
      obtain ⟨out', k1, k2, k3, k4, k5⟩ := ih s' (out ++ [u]) b' hinv (by simp only [List.length_append, List.length_cons, List.length_nil]; omega)
      refine ⟨out', ?_, k2, k3, k4, k5⟩
      rw [topoLoop, hq]
      simp only [getChildren_ok h.wf hu, bind, Except.bind, h1]
      exact k1

/-- `topo_sort` returns a parents-first list that contains every node all of whose parents it contains. -/
theorem topoSort_ok (h : g.DG) :
    ∃ out, g.topoSort = .ok out ∧ out.Nodup ∧ (∀ k ∈ out, k ∈ g.nodeList) ∧
      (∀ k ∈ g.nodeList, (∀ p, Dir g p k → p ∈ out) → k ∈ out) ∧
      (∀ l k r, out = l ++ k :: r → ∀ p, Dir g p k → p ∈ l) := by
  have hr0 : TRep g { found := dinit g.nodes 0, q := [], v := dinit g.nodes false } (fun _ => 0) (fun _ => false) := by
    refine ⟨fun k hk => ?_, fun k hk => ?_⟩
    · show dget (dinit g.nodes 0) k = _; rw [dget_dinit, if_pos (show k ∈ g.nodes from hk)]
    · show dget (dinit g.nodes false) k = _; rw [dget_dinit, if_pos (show k ∈ g.nodes from hk)]
  obtain ⟨s, b, h1, h2, h3, h4⟩ := topoInit_ok h.wf g.nodes (fun x hx => hx) h.wf.nodup _ _ _ hr0
  simp only [List.nil_append] at h3
  have hlen : ∀ x : α, (g.pa x).length = 0 ↔ ∀ p ∈ g.pa x, False := by
    intro x
    rw [List.length_eq_zero_iff, List.eq_nil_iff_forall_not_mem]
  have hmem : ∀ k, k ∈ s.q ↔ k ∈ g.nodeList ∧ (g.pa k).length = 0 := by
    intro k; rw [h3]; simp [nodes]
  have hinv : TInv g s [] b := by
    refine ⟨⟨?_, h2.vis⟩, ?_, ?_, ?_, ?_, ?_, ?_⟩
    · intro k hk; rw [h2.found k hk]; simp
    · rw [List.nil_append, h3]; exact h.wf.nodup.filter _
    · intro k hk; rw [List.nil_append] at hk; exact ((hmem k).1 hk).1
    · intro k; rw [h4, List.nil_append, hmem]
      simp [nodes]
    · intro k hk p hp; exact absurd hp ((hlen k).1 ((hmem k).1 hk).2 p)
    · intro k hk hp
      rw [List.nil_append, hmem]
      exact ⟨hk, (hlen k).2 (fun p hpp => by simpa using hp p hpp)⟩
    · intro l k r hlr; simp at hlr
  obtain ⟨out, k1, k2, k3, k4, k5⟩ := topoLoop_ok h g.nodes.length s [] b hinv (by simp [nodes])
  refine ⟨out, ?_, k2, k3, ?_, ?_⟩
  · unfold topoSort
    simp only [h1, bind, Except.bind]
    exact k1
  · intro k hk hp
    exact k4 k hk (fun p hpp => hp p ((h.mem_pa k p).1 hpp))
  · intro l k r hlr p hp
    exact k5 l k r hlr p ((h.mem_pa k p).2 hp)

/-- An acyclic finite relation has a minimal element in every non-empty set of nodes. -/
theorem exists_minimal {R : α → α → Prop} (l : List α) (hR : ∀ u v, R u v → u ∈ l) (ha : Spec.Acyclic R)
    (S : α → Prop) (hS : ∃ u, S u) : ∃ u, S u ∧ ∀ p, R p u → ¬ S p := by
  classical
  let m : α → Nat := fun u => (l.toFinset.filter (fun w => Relation.TransGen R w u)).card
  have hm : ∀ p u, R p u → m p < m u := by
    intro p u hpu
    apply Finset.card_lt_card
    rw [Finset.ssubset_iff_of_subset]
    · refine ⟨p, ?_, ?_⟩
      · simp only [Finset.mem_filter, List.mem_toFinset]
        exact ⟨hR p u hpu, Relation.TransGen.single hpu⟩
      · simp only [Finset.mem_filter, not_and]
        exact fun _ => ha p
    · intro w hw
      simp only [Finset.mem_filter] at hw ⊢
      exact ⟨hw.1, hw.2.tail hpu⟩
  obtain ⟨u, hu, hmin⟩ := WellFounded.has_min (measure m).wf {u | S u} hS
  exact ⟨u, hu, fun p hp hSp => hmin p hSp (hm p u hp)⟩

end Graph
end Cdmir
