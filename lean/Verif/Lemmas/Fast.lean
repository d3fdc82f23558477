import Verif.Lemmas.Search

/-! The loops of `fast_adjacency_search`. -/

namespace Cdmir
open Spec
namespace Graph
variable {α σ P : Type} [DecidableEq α] [LE P] [DecidableLE P]
variable {test : CITest α σ P} {alpha : P} {N : List α} {st0 : σ}

/-- Invariant inside `get_sep_result`: proof device. -/
structure FI (test : CITest α σ P) (alpha : P) (N : List α) (st0 : σ) (u v : α) (tr0 lev : List (Asked α P))
    (s : FastState α σ) : Prop where
  ans : Answers test st0 (tr0 ++ lev) s.st
  sep : SepOf N (Accepted alpha (tr0 ++ lev)) s.sep
  none : s.res = none → ∀ z, ¬ Accepted alpha lev u v z
  some : ∀ r, s.res = some r → (∃ z, Accepted alpha lev u v z) ∧ ∀ w ∈ r, ∃ z, Accepted alpha lev u v z ∧ w ∈ z
  legal : ∀ q ∈ tr0 ++ lev, Legal N q.u q.v q.z
  only : ∀ q ∈ lev, q.u = u ∧ q.v = v

theorem fastZ_spec {tr0 lev : List (Asked α P)} {s : FastState α σ} {u v : α} (h : FI test alpha N st0 u v tr0 lev s)
    {z : List α} (hz : Legal N u v z) :
    Ends (fun s' => ∃ p, FI test alpha N st0 u v tr0 (lev ++ [⟨u, v, z, p⟩]) s') (Raised test N st0)
      (fastZ test alpha u v s z) := by
  unfold fastZ
  cases e : test u v z s.st with
  | error x => exact ⟨tr0 ++ lev, s.st, u, v, z, h.ans, h.legal, hz, e⟩
  | ok r =>
    obtain ⟨p, st⟩ := r
    have hans : Answers test st0 (tr0 ++ (lev ++ [⟨u, v, z, p⟩])) st := by
      rw [← List.append_assoc]
      exact h.ans.append ⟨st, e, rfl⟩
    have hacc : ∀ a b y, Accepted alpha (tr0 ++ (lev ++ [⟨u, v, z, p⟩])) a b y ↔
        Accepted alpha (tr0 ++ lev) a b y ∨ (alpha ≤ p ∧ a = u ∧ b = v ∧ y = z) := by
      intro a b y
      rw [← List.append_assoc, accepted_append, accepted_single]
    have hacc' : ∀ y, Accepted alpha (lev ++ [⟨u, v, z, p⟩]) u v y ↔ Accepted alpha lev u v y ∨ (alpha ≤ p ∧ y = z) := by
      intro y
      rw [accepted_append, accepted_single]; simp
    have hleg : ∀ q ∈ tr0 ++ (lev ++ [⟨u, v, z, p⟩]), Legal N q.u q.v q.z := by
      intro q hq
      rw [← List.append_assoc, List.mem_append, List.mem_singleton] at hq
      rcases hq with hq | rfl
      · exact h.legal q hq
      · exact hz
    have honly : ∀ q ∈ lev ++ [⟨u, v, z, p⟩], q.u = u ∧ q.v = v := by
      intro q hq
      rw [List.mem_append, List.mem_singleton] at hq
      rcases hq with hq | rfl
      · exact h.only q hq
      · exact ⟨rfl, rfl⟩
    simp only [bind, Except.bind]
    by_cases hp : alpha ≤ p
    · rw [if_pos hp]
      obtain ⟨sep', e', hs'⟩ := sepAdd_ok h.sep hz.1 hz.2.1 hz.2.2.1 z
      rw [e']
      refine ⟨p, hans, hs'.congr (fun a b y => ?_), by simp, ?_, hleg, honly⟩
      · rw [hacc]; simp [hp]
      · intro r hr
        simp only [Option.some.injEq] at hr
        refine ⟨⟨z, (hacc' z).2 (Or.inr ⟨hp, rfl⟩)⟩, fun w hw => ?_⟩
        rw [← hr] at hw
        cases hres : s.res with
        | none =>
          rw [hres] at hw
          exact ⟨z, (hacc' z).2 (Or.inr ⟨hp, rfl⟩), (mem_pySet _ _).1 hw⟩
        | some r0 =>
          rw [hres] at hw
          rcases (mem_pyUnion _ _ _).1 hw with hw | hw
          · obtain ⟨y, hy, hwy⟩ := (h.some r0 hres).2 w hw
            exact ⟨y, (hacc' y).2 (Or.inl hy), hwy⟩
          · exact ⟨z, (hacc' z).2 (Or.inr ⟨hp, rfl⟩), (mem_pySet _ _).1 hw⟩
    · rw [if_neg hp]
      refine ⟨p, hans, h.sep.congr (fun a b y => ?_), ?_, ?_, hleg, honly⟩
      · rw [hacc]; simp [hp]
      · intro hr y hy
        rw [hacc'] at hy
        simp only [hp, false_and, or_false] at hy
        exact h.none hr y hy
      · intro r hr
        simp only [hacc', hp, false_and, or_false]
        exact h.some r hr

theorem fastZs_spec {tr0 lev : List (Asked α P)} {s : FastState α σ} {u v : α} (h : FI test alpha N st0 u v tr0 lev s)
    (zs : List (List α)) (hz : ∀ z ∈ zs, Legal N u v z) :
    Ends (fun s' => ∃ l1, l1.map key = zs.map (fun z => (u, v, z)) ∧ FI test alpha N st0 u v tr0 (lev ++ l1) s')
      (Raised test N st0) (zs.foldlM (fastZ test alpha u v) s) := by
  refine foldlM_ends (P := fun p s' => ∃ l1, l1.map key = p.map (fun z => (u, v, z)) ∧
    FI test alpha N st0 u v tr0 (lev ++ l1) s') zs s ⟨[], rfl, by rwa [List.append_nil]⟩ ?_
  rintro p z s' ⟨t, ht⟩ ⟨l1, hl1, hi⟩
  refine (fastZ_spec hi (hz z (by rw [ht]; simp))).mono ?_ (fun _ h => h)
  rintro s'' ⟨q, hq⟩
  refine ⟨l1 ++ [⟨u, v, z, q⟩], by simp [hl1, key], by rwa [← List.append_assoc]⟩

/-- The conditioning tuples tried for a pair in one level: proof device. -/
def sideSets (g : Graph α) (k : Nat) (u v : α) : List (List α) := combinations ((g.nbrs u).filter (fun w => w ≠ v)) k

theorem sideSets_mem {K : α → α → Prop} {g : Graph α} (h : UG N K g) (hne : ∀ a b, K a b → a ≠ b) {u v : α} (hv : v ∈ N)
    (hu : u ∈ N) (huv : u ≠ v) (k : Nat) :
    (∀ z ∈ sideSets g k u v, Legal N u v z ∧ z.length = k ∧ ∀ w ∈ z, K u w) ∧
    ∀ z, z.Nodup → z.length = k → (∀ w ∈ z, K u w ∧ w ≠ v) → ∃ z' ∈ sideSets g k u v, z'.Perm z := by
  have hnd : ((g.nbrs u).filter (fun w => w ≠ v)).Nodup := (nbrs_nodup h.pg.wf u).filter _
  have hm : ∀ w, w ∈ (g.nbrs u).filter (fun w => w ≠ v) ↔ K u w ∧ w ≠ v := by
    intro w
    simp only [List.mem_filter, h.mem_nbrs, decide_eq_true_eq]
  constructor
  · intro z hz
    unfold sideSets at hz
    rw [mem_combinations_iff] at hz
    have hzm : ∀ w ∈ z, K u w ∧ w ≠ v := fun w hw => (hm w).1 (hz.1.subset hw)
    exact ⟨⟨hu, hv, huv, fun w hw => (h.mem (hzm w hw).1).2, hz.1.nodup hnd, fun hc => hne _ _ (hzm _ hc).1 rfl,
      fun hc => (hzm _ hc).2 rfl⟩, hz.2, fun w hw => (hzm w hw).1⟩
  · intro z hznd hlen hz
    have hperm := nodup_perm_filter hnd hznd (fun w hw => (hm w).2 (hz w hw))
    exact ⟨_, mem_combinations_iff.2 ⟨List.filter_sublist, hperm.length_eq.trans hlen⟩, hperm⟩

/-- Every question about the pair `u`, `v` that the adjacency `K` calls for at level `k` is in `tr`: proof device. -/
def AskedAt (K : α → α → Prop) (k : Nat) (u v : α) (tr : List (Asked α P)) : Prop :=
  ∀ z, z.Nodup → z.length = k → ((∀ w ∈ z, K u w ∧ w ≠ v) ∨ ∀ w ∈ z, K v w ∧ w ≠ u) →
    ∃ q ∈ tr, q.u = u ∧ q.v = v ∧ q.z.Perm z

omit [DecidableEq α] [DecidableLE P] [LE P] in
theorem AskedAt.mono {K K' : α → α → Prop} {k : Nat} {u v : α} {tr tr' : List (Asked α P)} (h : AskedAt K k u v tr)
    (hk : ∀ a b, K' a b → K a b) (ht : ∀ q ∈ tr, q ∈ tr') : AskedAt K' k u v tr' := by
  intro z h1 h2 h3
  obtain ⟨q, hq, r⟩ := h z h1 h2 (h3.imp (fun h w hw => ⟨hk _ _ (h w hw).1, (h w hw).2⟩) (fun h w hw => ⟨hk _ _ (h w hw).1, (h w hw).2⟩))
  exact ⟨q, ht q hq, r⟩

theorem fastStep_spec {tr : List (Asked α P)} {s : Graph α × Sep α × σ} (h : SI test alpha N st0 tr s) (k : Nat) {p : α × α}
    (hp : p ∈ pairs N) :
    Ends (fun s' => ∃ lev, SI test alpha N st0 (tr ++ lev) s' ∧
        (KeepOf N (Accepted alpha tr) p.1 p.2 → AskedAt (KeepOf N (Accepted alpha tr)) k p.1 p.2 lev) ∧
        ∀ q ∈ lev, KeepOf N (Accepted alpha tr) p.1 p.2 ∧ q.u = p.1 ∧ q.v = p.2 ∧ q.z.length = k ∧
          ((∀ w ∈ q.z, KeepOf N (Accepted alpha tr) p.1 w) ∨ ∀ w ∈ q.z, KeepOf N (Accepted alpha tr) p.2 w))
      (Raised test N st0) (fastStep test alpha k s p) := by
  obtain ⟨u, v⟩ := p
  have hN := h.ug.nodup
  have hw := h.ug.pg.wf
  obtain ⟨hu, hv⟩ := mem_pairs_mem hp
  have huv := mem_pairs_ne hN hp
  unfold fastStep
  rw [getEdge_ok hw (by rw [h.ug.nodes]; exact hu) (by rw [h.ug.nodes]; exact hv)]
  simp only [bind, Except.bind]
  by_cases hk : KeepOf N (Accepted alpha tr) u v
  · have hund := (und_iff hw u v).1 (h.ug.und u v ((h.ug.conn u v).2 hk))
    have he : s.1.edge? u v = some ⟨u, v, .tail, .tail⟩ := by unfold edge?; rw [hund.1, hund.2]
    rw [he]
    simp only
    have hne : ∀ a b, KeepOf N (Accepted alpha tr) a b → a ≠ b := fun a b h => h.2.2.1
    obtain ⟨m1, m2⟩ := sideSets_mem h.ug hne hv hu huv k
    obtain ⟨n1, n2⟩ := sideSets_mem h.ug hne hu hv huv.symm k
    have hpair : Ends (fun r => ∃ lev, FI test alpha N st0 u v tr lev r ∧
        lev.map key = (sideSets s.1 k u v ++ sideSets s.1 k v u).map (fun z => (u, v, z))) (Raised test N st0)
        (fastPair test alpha s.1 k u v { res := none, sep := s.2.1, st := s.2.2 }) := by
      unfold fastPair
      rw [getNeighbours_ok hw (by rw [h.ug.nodes]; exact hu), getNeighbours_ok hw (by rw [h.ug.nodes]; exact hv)]
      have h0 : FI test alpha N st0 u v tr [] ({ res := none, sep := s.2.1, st := s.2.2 } : FastState α σ) := by
        refine ⟨by simpa using h.ans, by simpa using h.sep, by simp [Accepted], by simp, by simpa using h.legal, by simp⟩
      refine (fastZs_spec h0 (sideSets s.1 k u v) (fun z hz => (m1 z hz).1)).bind ?_
      rintro s1 ⟨l1, e1, h1⟩
      refine (fastZs_spec h1 (sideSets s.1 k v u) (fun z hz => ?_)).mono ?_ (fun _ h => h)
      · have := (n1 z hz).1
        exact ⟨this.2.1, this.1, this.2.2.1.symm, this.2.2.2.1, this.2.2.2.2.1, this.2.2.2.2.2.2, this.2.2.2.2.2.1⟩
      · rintro s2 ⟨l2, e2, h2⟩
        exact ⟨_, h2, by simp [e1, e2]⟩
    refine hpair.bind ?_
    rintro r ⟨lev, hfi, hkeys⟩
    have hq : ∀ q ∈ lev, KeepOf N (Accepted alpha tr) u v ∧ q.u = u ∧ q.v = v ∧ q.z.length = k ∧
          ((∀ w ∈ q.z, KeepOf N (Accepted alpha tr) u w) ∨ ∀ w ∈ q.z, KeepOf N (Accepted alpha tr) v w) := by
      intro q hq
      have : key q ∈ lev.map key := List.mem_map_of_mem hq
      rw [hkeys, List.mem_map] at this
      obtain ⟨z, hz, hzq⟩ := this
      unfold key at hzq
      simp only [Prod.mk.injEq] at hzq
      obtain ⟨rfl, rfl, rfl⟩ := hzq
      refine ⟨hk, rfl, rfl, ?_⟩
      rcases List.mem_append.1 hz with hz | hz
      · exact ⟨(m1 _ hz).2.1, Or.inl (m1 _ hz).2.2⟩
      · exact ⟨(n1 _ hz).2.1, Or.inr (n1 _ hz).2.2⟩
    have hask : AskedAt (KeepOf N (Accepted alpha tr)) k u v lev := by
      intro z z1 z2 z3
      have : ∃ z' ∈ sideSets s.1 k u v ++ sideSets s.1 k v u, z'.Perm z := by
        rcases z3 with z3 | z3
        · obtain ⟨z', k1, k2⟩ := m2 z z1 z2 z3
          exact ⟨z', by simp [k1], k2⟩
        · obtain ⟨z', k1, k2⟩ := n2 z z1 z2 z3
          exact ⟨z', by simp [k1], k2⟩
      obtain ⟨z', k1, k2⟩ := this
      have : (u, v, z') ∈ lev.map key := by rw [hkeys]; exact List.mem_map.2 ⟨z', k1, rfl⟩
      obtain ⟨q, hq1, hq2⟩ := List.mem_map.1 this
      unfold key at hq2
      simp only [Prod.mk.injEq] at hq2
      exact ⟨q, hq1, hq2.1, hq2.2.1, by rw [hq2.2.2]; exact k2⟩
    have honly : ∀ a b z, Accepted alpha lev a b z → a = u ∧ b = v := by
      rintro a b z ⟨p, _, hp⟩
      exact hfi.only _ hp
    have hkeep : ∀ a b, KeepOf N (Accepted alpha (tr ++ lev)) a b ↔
        KeepOf N (Accepted alpha tr) a b ∧ ∀ z, ¬ Accepted alpha lev a b z ∧ ¬ Accepted alpha lev b a z := by
      intro a b
      unfold KeepOf
      simp only [accepted_append]
      constructor
      · rintro ⟨k1, k2, k3, k4⟩
        exact ⟨⟨k1, k2, k3, fun z => ⟨fun h => (k4 z).1 (Or.inl h), fun h => (k4 z).2 (Or.inl h)⟩⟩,
          fun z => ⟨fun h => (k4 z).1 (Or.inr h), fun h => (k4 z).2 (Or.inr h)⟩⟩
      · rintro ⟨⟨k1, k2, k3, k4⟩, k5⟩
        refine ⟨k1, k2, k3, fun z => ⟨?_, ?_⟩⟩
        · rintro (h | h)
          · exact (k4 z).1 h
          · exact (k5 z).1 h
        · rintro (h | h)
          · exact (k4 z).2 h
          · exact (k5 z).2 h
    cases hres : r.res with
    | none =>
      simp only
      refine ⟨lev, ⟨hfi.ans, hfi.sep, h.ug.congr (fun a b => ?_), hfi.legal⟩, fun _ => hask, hq⟩
      rw [hkeep]
      constructor
      · refine fun hab => ⟨hab, fun z => ⟨fun hc => ?_, fun hc => ?_⟩⟩
        · obtain ⟨rfl, rfl⟩ := honly _ _ _ hc
          exact hfi.none hres z hc
        · obtain ⟨rfl, rfl⟩ := honly _ _ _ hc
          exact hfi.none hres z hc
      · exact fun hab => hab.1
    | some z0 =>
      simp only
      obtain ⟨⟨zs, hzs⟩, hin⟩ := hfi.some z0 hres
      obtain ⟨g1, e1, h1⟩ := h.ug.remove hu hv
      rw [e1]
      simp only
      obtain ⟨t, ht, ht'⟩ := hfi.sep u hu v hv huv
      rw [dgetE_of _ _ _ ht]
      simp only
      refine ⟨lev, ⟨hfi.ans, ?_, h1.congr (fun a b => ?_), hfi.legal⟩, fun _ => hask, hq⟩
      · intro a ha b hb hab
        simp only
        rw [dget_dset]
        split_ifs with c
        · simp only [Prod.mk.injEq] at c
          obtain ⟨rfl, rfl⟩ := c
          refine ⟨_, rfl, fun w => ?_⟩
          rw [mem_pyUnion, ht']
          constructor
          · rintro (hw | hw)
            · exact hw
            · obtain ⟨y, hy, hwy⟩ := hin w hw
              exact ⟨y, Or.inl ((accepted_append _ _ _ _ _).2 (Or.inr hy)), hwy⟩
          · exact fun hw => Or.inl hw
        · exact hfi.sep a ha b hb hab
      · rw [hkeep]
        constructor
        · rintro ⟨hab, c1, c2⟩
          refine ⟨hab, fun z => ⟨fun hc => c1 (honly _ _ _ hc), fun hc => c2 (honly _ _ _ hc).symm⟩⟩
        · rintro ⟨hab, hc⟩
          refine ⟨hab, ?_, ?_⟩
          · rintro ⟨rfl, rfl⟩; exact (hc zs).1 hzs
          · rintro ⟨rfl, rfl⟩; exact (hc zs).2 hzs
  · have he : s.1.edge? u v = none := by
      rw [← Option.not_isSome_iff_eq_none, edge?_isSome hw, h.ug.mark]; exact hk
    rw [he]
    exact ⟨[], by simpa using h, fun hc => absurd hc hk, by simp⟩

omit [DecidableEq α] [DecidableLE P] in
theorem keepOf_mono {tr lev : List (Asked α P)} {a b : α} (h : KeepOf N (Accepted alpha (tr ++ lev)) a b) :
    KeepOf N (Accepted alpha tr) a b := by
  obtain ⟨h1, h2, h3, h4⟩ := h
  exact ⟨h1, h2, h3, fun z => ⟨fun h => (h4 z).1 ((accepted_append _ _ _ _ _).2 (Or.inl h)),
    fun h => (h4 z).2 ((accepted_append _ _ _ _ _).2 (Or.inl h))⟩⟩

/-- What has been asked about the pairs that are left: proof device. -/
def AskedAll (alpha : P) (N : List α) (C : Nat → α → α → Prop) (tr : List (Asked α P)) : Prop :=
  ∀ k u v, C k u v → KeepOf N (Accepted alpha tr) u v → AskedAt (KeepOf N (Accepted alpha tr)) k u v tr

omit [DecidableEq α] [DecidableLE P] in
theorem AskedAll.append {C : Nat → α → α → Prop} {tr lev : List (Asked α P)} (h : AskedAll alpha N C tr) :
    AskedAll alpha N C (tr ++ lev) := by
  intro k u v hc hk
  exact (h k u v hc (keepOf_mono hk)).mono (fun a b => keepOf_mono) (fun q hq => by simp [hq])

theorem fastLevel_spec {tr : List (Asked α P)} {s : Graph α × Sep α × σ} {C : Nat → α → α → Prop}
    (h : SI test alpha N st0 tr s) (hc : AskedAll alpha N C tr) (k : Nat) :
    Ends (fun s' => ∃ lev, SI test alpha N st0 (tr ++ lev) s' ∧
        AskedAll alpha N (fun j u v => C j u v ∨ (j = k ∧ (u, v) ∈ pairs N)) (tr ++ lev)) (Raised test N st0)
      (fastLevel test alpha s k) := by
  unfold fastLevel
  rw [h.ug.nodes]
  refine (foldlM_ends (P := fun ps s' => ∃ lev, SI test alpha N st0 (tr ++ lev) s' ∧
    AskedAll alpha N (fun j u v => C j u v ∨ (j = k ∧ (u, v) ∈ ps)) (tr ++ lev)) (pairs N) s ⟨[], by simpa using h, ?_⟩ ?_)
  · simpa using hc
  · rintro ps p s1 ⟨t, ht⟩ ⟨lev, h1, h2⟩
    refine (fastStep_spec h1 k (p := p) (by rw [ht]; simp)).mono ?_ (fun _ h => h)
    rintro s2 ⟨lev2, h3, h4, _⟩
    refine ⟨lev ++ lev2, by rwa [← List.append_assoc], ?_⟩
    rw [← List.append_assoc]
    intro j u v hj hk
    by_cases hnew : j = k ∧ (u, v) = p
    · obtain ⟨rfl, rfl⟩ := hnew
      exact (h4 (keepOf_mono hk)).mono (fun a b => keepOf_mono) (fun q hq => by simp [hq])
    · refine (h2.append (lev := lev2)) j u v ?_ hk
      rcases hj with hj | ⟨hj, hm⟩
      · exact Or.inl hj
      · rw [List.mem_append, List.mem_singleton] at hm
        exact Or.inr ⟨hj, hm.resolve_right (fun hc => hnew ⟨hj, hc⟩)⟩

theorem fastAdjacencySearch_spec (hN : N.Nodup) :
    Ends (fun s' => ∃ tr, SI test alpha N st0 tr s' ∧
        AskedAll alpha N (fun k u v => k < N.length - 1 ∧ (u, v) ∈ pairs N) tr)
      (Raised test N st0) (fastAdjacencySearch test N alpha st0) := by
  obtain ⟨g0, h0⟩ := (init_ok_iff .pdag N).2 hN
  obtain ⟨g, e, hg⟩ := createComplete_ok h0
  unfold fastAdjacencySearch
  rw [h0]
  simp only [bind, Except.bind, e]
  have hbase : SI test alpha N st0 [] (g, sepInit g.nodes, st0) := by
    refine ⟨rfl, ?_, hg.congr (fun a b => ?_), by simp⟩
    · show SepOf N _ (sepInit g.nodeList)
      rw [hg.nodes]
      exact (sepOf_init hN).congr (fun a b z => by simp [Accepted])
    · unfold KeepOf Accepted; simp
  refine (foldlM_ends (P := fun ks s' => ∃ tr, SI test alpha N st0 tr s' ∧
    AskedAll alpha N (fun k u v => k ∈ ks ∧ (u, v) ∈ pairs N) tr) (List.range (N.length - 1)) _
    ⟨[], hbase, by intro k u v hc; simp at hc⟩ ?_).mono ?_ (fun _ h => h)
  · rintro ks k s1 _ ⟨tr, h1, h2⟩
    refine (fastLevel_spec h1 h2 k).mono ?_ (fun _ h => h)
    rintro s2 ⟨lev, h3, h4⟩
    refine ⟨_, h3, fun j u v hj => h4 j u v ?_⟩
    simp only [List.mem_append, List.mem_singleton] at hj ⊢
    tauto
  · rintro s' ⟨tr, h1, h2⟩
    exact ⟨tr, h1, fun k u v hj => h2 k u v (by simpa only [List.mem_range] using hj)⟩

omit [DecidableEq α] [DecidableLE P] in
/-- The skeleton the fast search finds with a perfect oracle. -/
theorem fast_skeleton {D : α → α → Prop} (ac : Acyclic D) (hD : ∀ u v, D u v → u ∈ N ∧ v ∈ N)
    (hN : N.Nodup) {tr : List (Asked α P)}
    (hl : AskedAll alpha N (fun k u v => k < N.length - 1 ∧ (u, v) ∈ pairs N) tr)
    (hp : ∀ q ∈ tr, (alpha ≤ q.p ↔ DSep D q.u q.v (fun w => w ∈ q.z))) (u v : α) :
    KeepOf N (Accepted alpha tr) u v ↔ Adj D u v := by
  classical
  have keep : ∀ a b, Adj D a b → KeepOf N (Accepted alpha tr) a b := by
    intro a b hab
    have hne : a ≠ b := by rintro rfl; rcases hab with h | h <;> exact ac.irrefl _ h
    have hm : a ∈ N ∧ b ∈ N := by
      rcases hab with h | h
      · exact hD _ _ h
      · exact (hD _ _ h).symm
    have hacc : ∀ a b z, Accepted alpha tr a b z → DSep D a b (fun w => w ∈ z) := by
      rintro a b z ⟨p, h1, h2⟩
      exact (hp _ h2).1 h1
    exact ⟨hm.1, hm.2, hne, fun z => ⟨fun h => not_dsep_of_adj hne hab (hacc _ _ _ h),
      fun h => not_dsep_of_adj hne.symm hab.symm (hacc _ _ _ h)⟩⟩
  refine ⟨fun hk => ?_, keep u v⟩
  by_contra hna
  have main : ∀ a b, (a, b) ∈ pairs N → a ≠ b → ¬ Adj D a b → KeepOf N (Accepted alpha tr) a b → False := by
    intro a b hab hne hna hk
    have side : ∀ x y, x ∈ N → y ∈ N → x ≠ y → ¬ Adj D x y → ¬ Desc D y x →
        ∃ z : List α, z.Nodup ∧ z.length < N.length - 1 ∧ (∀ w ∈ z, KeepOf N (Accepted alpha tr) y w ∧ w ≠ x) ∧
          DSep D x y (fun w => w ∈ z) := by
      intro x y hx hy hxy hna hnd
      have hsep := dsep_parents ac hxy hna hnd
      let z := N.filter (fun w => decide (D w y))
      have hz : ∀ w, w ∈ z ↔ D w y := by
        intro w
        simp only [z, List.mem_filter, decide_eq_true_eq]
        exact ⟨fun h => h.2, fun h => ⟨(hD _ _ h).1, h⟩⟩
      have hznd : z.Nodup := hN.filter _
      have hxz : x ∉ z := fun h => hna (Or.inl ((hz x).1 h))
      have hyz : y ∉ z := fun h => ac.irrefl y ((hz y).1 h)
      refine ⟨z, hznd, ?_, fun w hw => ⟨keep y w (Or.inr ((hz w).1 hw)), fun h => hxz (h ▸ hw)⟩,
        (dsep_congr (fun w => (hz w).symm) _ _).1 hsep⟩
      have h1 : (x :: y :: z).Nodup := by simp [hxy, hxz, hyz, hznd]
      have h2 : (x :: y :: z).Subperm N := h1.subperm (by
        intro w hw
        simp only [List.mem_cons] at hw
        rcases hw with rfl | rfl | hw
        · exact hx
        · exact hy
        · exact (hD _ _ ((hz w).1 hw)).1)
      have := h2.length_le
      simp at this
      omega
    have fin : ∀ z : List α, z.Nodup → z.length < N.length - 1 → DSep D a b (fun w => w ∈ z) →
        ((∀ w ∈ z, KeepOf N (Accepted alpha tr) a w ∧ w ≠ b) ∨ ∀ w ∈ z, KeepOf N (Accepted alpha tr) b w ∧ w ≠ a) → False := by
      intro z z1 z2 z3 z4
      obtain ⟨q, hq, rfl, rfl, hperm⟩ := hl z.length a b ⟨z2, hab⟩ hk z z1 rfl z4
      have hds : DSep D q.u q.v (fun w => w ∈ q.z) := (dsep_congr (fun w => hperm.mem_iff.symm) _ _).1 z3
      exact (hk.2.2.2 q.z).1 ⟨q.p, (hp q hq).2 hds, hq⟩
    by_cases hd : Desc D b a
    · obtain ⟨z, z1, z2, z3, z4⟩ := side b a hk.2.1 hk.1 hne.symm (fun h => hna h.symm) (fun hd' => by
        rcases (Relation.reflTransGen_iff_eq_or_transGen.1 hd) with h | h
        · exact hne h
        · exact ac _ (h.trans_left hd'))
      exact fin z z1 z2 z4.symm (Or.inl z3)
    · obtain ⟨z, z1, z2, z3, z4⟩ := side a b hk.1 hk.2.1 hne hna hd
      exact fin z z1 z2 z4 (Or.inr z3)
  have hks : KeepOf N (Accepted alpha tr) v u := ⟨hk.2.1, hk.1, hk.2.2.1.symm, fun z => (hk.2.2.2 z).symm⟩
  rcases pairs_complete hk.1 hk.2.1 hk.2.2.1 with h | h
  · exact main u v h hk.2.2.1 hna hk
  · exact main v u h hk.2.2.1.symm (fun h => hna h.symm) hks

end Graph
end Cdmir
