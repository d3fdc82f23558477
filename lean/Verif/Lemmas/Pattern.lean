import Verif.Lemmas.Search

/-! The skeleton loop of `dag2cpdag`, and what `rule0` makes of a correct skeleton with separating sets. -/

namespace Cdmir
namespace Spec
variable {α : Type} {D : α → α → Prop}

/-- On an unshielded triple, the middle node is a collider iff it is outside a separating set. -/
theorem triple_sep {u w v : α} {Z : α → Prop} (huv : u ≠ v) (hu : Adj D u w) (hv : Adj D v w) (hna : ¬ Adj D u v)
    (hwu : w ≠ u) (hwv : w ≠ v) (hs : DSep D u v Z) : Z w ↔ ¬ Collider D u w v := by
  obtain ⟨a, b, c, hi, hb⟩ := hs [u, w, v] ⟨by simp [huv, hwu.symm, hwv], rfl, rfl, by
    intro a b hi
    rw [pair_infix_cons, pair_infix_cons] at hi
    rcases hi with ⟨h1, h2⟩ | ⟨h1, h2⟩ | h
    · cases h1; cases h2; exact hu
    · cases h1; cases h2; exact hv.symm
    · have := h.length_le
      simp at this⟩
  have he := hi.eq_of_length (by simp)
  simp only [List.cons.injEq, and_true] at he
  obtain ⟨rfl, rfl, rfl⟩ := he
  rcases hb with ⟨h1, h2⟩ | ⟨h1, h2⟩
  · exact ⟨fun _ => h1, fun _ => h2⟩
  · exact ⟨fun h => absurd Relation.ReflTransGen.refl (h2 b h), fun h => absurd h1 h⟩

theorem Acyclic.adj_ne (ac : Acyclic D) {u v : α} (h : Adj D u v) : u ≠ v := by
  rintro rfl; rcases h with h | h <;> exact ac.irrefl _ h

end Spec

namespace Graph
open Spec
variable {α : Type} [DecidableEq α] {g : Graph α} {N : List α} {D : α → α → Prop}

/-- `g` is the pattern of the DAG `D`: skeleton plus unshielded colliders. Proof device. -/
structure IsPattern (N : List α) (D : α → α → Prop) (g : Graph α) : Prop where
  rs : ReachableSimple .pdag g
  nodes : g.nodeList = N
  conn : ∀ u v, Conn g u v ↔ Adj D u v
  dir : ∀ u v, Dir g u v ↔ ∃ x, VStruct D u v x
  und : ∀ u v, Und g u v ↔ Adj D u v ∧ (¬ ∃ x, VStruct D u v x) ∧ ¬ ∃ x, VStruct D v u x

theorem IsPattern.pg (h : IsPattern N D g) : g.PG := ⟨h.rs.toReachable.good'.1, h.rs.toReachable.good'.2⟩

theorem claims_iff (ac : Acyclic D) (hug : UG N (Adj D) g) {A : α → α → List α → Prop} {sep : Sep α}
    (hA : ∀ a b z, A a b z → DSep D a b (fun w => w ∈ z))
    (hne : ∀ a ∈ N, ∀ b ∈ N, a ≠ b → ¬ Adj D a b → ∃ z, A a b z ∨ A b a z) (hsep : SepOf N A sep) (u w v : α) :
    Claims g sep u w v ↔ VStruct D u w v := by
  have key : ∀ u v, u ≠ v → Adj D u w → Adj D v w → ¬ Adj D u v → (Outside sep u v w ↔ Collider D u w v) := by
    intro u v huv hu hv hna
    have hmu := hug.mem hu
    have hmv := hug.mem hv
    have hwu := ac.adj_ne hu
    have hwv := ac.adj_ne hv
    obtain ⟨s, hs, hs'⟩ := hsep u hmu.1 v hmv.1 huv
    have hA' : ∀ z, A u v z ∨ A v u z → (w ∈ z ↔ ¬ Collider D u w v) := by
      rintro z (h | h)
      · exact triple_sep huv hu hv hna hwu.symm hwv.symm (hA _ _ _ h)
      · have := triple_sep huv.symm hv hu (fun h => hna h.symm) hwv.symm hwu.symm (hA _ _ _ h)
        rw [this]
        unfold Collider
        tauto
    unfold Outside
    rw [hs]
    simp only [Option.some.injEq, exists_eq_left', hs']
    constructor
    · intro h
      obtain ⟨z, hz⟩ := hne u hmu.1 v hmv.1 huv hna
      by_contra hc
      exact h ⟨z, hz, (hA' z hz).2 hc⟩
    · rintro hc ⟨z, hz, hw⟩
      exact (hA' z hz).1 hw hc
  constructor
  · rintro ⟨h1, h2, h3, h4, h5, h6⟩
    rw [hug.conn] at h3 h4 h5
    have huv : u ≠ v := by
      rintro rfl
      rcases h6 with ⟨h, _⟩ | ⟨h, _⟩ <;> exact absurd h (lt_irrefl _)
    rcases h6 with ⟨_, h⟩ | ⟨_, h⟩
    · have := (key u v huv h3 h4 h5).1 h
      exact ⟨huv, this.1, this.2, h5⟩
    · have := (key v u huv.symm h4 h3 (fun h => h5 h.symm)).1 h
      exact ⟨huv, this.2, this.1, h5⟩
  · rintro ⟨huv, h1, h2, h3⟩
    have hau : Adj D u w := Or.inl h1
    have hav : Adj D v w := Or.inl h2
    have hmu := hug.mem hau
    have hmv := hug.mem hav
    refine ⟨(ac.adj_ne hau).symm, (ac.adj_ne hav).symm, (hug.conn _ _).2 hau, (hug.conn _ _).2 hav, fun h => h3 ((hug.conn _ _).1 h), ?_⟩
    have hn : g.nodes = N := hug.nodes
    rcases lt_trichotomy (g.nodes.idxOf u) (g.nodes.idxOf v) with h | h | h
    · exact Or.inl ⟨h, (key u v huv hau hav h3).2 ⟨h1, h2⟩⟩
    · exact absurd ((List.idxOf_inj (by rw [hn]; exact hmu.1)).1 h) huv
    · exact Or.inr ⟨h, (key v u huv.symm hav hau (fun h => h3 h.symm)).2 ⟨h2, h1⟩⟩

/-- `rule0` on the true skeleton with correct separating sets gives the pattern. -/
theorem rule0_pattern (ac : Acyclic D) (hug : UG N (Adj D) g) {A : α → α → List α → Prop} {sep : Sep α}
    (hA : ∀ a b z, A a b z → DSep D a b (fun w => w ∈ z))
    (hne : ∀ a ∈ N, ∀ b ∈ N, a ≠ b → ¬ Adj D a b → ∃ z, A a b z ∨ A b a z) (hsep : SepOf N A sep) :
    ∃ g', g.rule0 sep = .ok g' ∧ IsPattern N D g' := by
  have hcl := claims_iff ac hug hA hne hsep
  have hs : ∀ p ∈ pairs g.nodeList, ¬ Conn g p.1 p.2 → (dget sep p).isSome := by
    rintro ⟨a, b⟩ hp _
    rw [hug.nodes] at hp
    have hm := mem_pairs_mem hp
    obtain ⟨s, hs, _⟩ := hsep a hm.1 b hm.2 (mem_pairs_ne hug.nodup hp)
    rw [hs]; rfl
  obtain ⟨g', e, r, hd⟩ := rule0_spec hug.pg hs
  have hto : ∀ a b, To g sep a b ↔ ∃ x, VStruct D a b x := by
    intro a b
    unfold To
    simp only [hcl]
  have hnot : ∀ a b, To g sep a b → ¬ To g sep b a := by
    intro a b h1 h2
    obtain ⟨_, _, h1, _⟩ := (hto a b).1 h1
    obtain ⟨_, _, h2, _⟩ := (hto b a).1 h2
    exact ac.asymm _ _ h1 h2
  have hw' := r.pg.wf
  have hdir : ∀ a b, To g sep a b → Dir g' a b := by
    rintro a b ⟨x, hx⟩
    exact (hd a b x hx (hnot _ _ ⟨x, hx⟩) (hnot _ _ ⟨a, hx.symm hug.pg.wf⟩)).1
  have hdir' : ∀ a b, Dir g' a b → To g sep a b := by
    intro a b h
    have hab := Dir.ne hw' h
    rcases r.edge a b hab with h' | ⟨_, h'⟩ | ⟨h', _⟩
    · unfold Dir at h
      rw [h'] at h
      have hc : Conn g a b := Dir.conn hug.pg.wf h
      exact absurd (hug.und a b hc) (Dir.not_und hug.pg.wf h)
    · exact h'
    · exact absurd h' (Dir.asymm hw' h)
  refine ⟨g', e, r.via.reachableSimple hug.rs, r.nodes.trans hug.nodes, fun u v => (r.conn u v).trans (hug.conn u v), ?_, ?_⟩
  · intro u v
    rw [← hto]
    exact ⟨hdir' u v, hdir u v⟩
  · intro u v
    rw [← hto, ← hto]
    constructor
    · intro h
      refine ⟨(hug.conn _ _).1 ((r.conn _ _).1 (h.conn hw')), fun h' => ?_, fun h' => ?_⟩
      · exact Dir.not_und hw' (hdir _ _ h') h
      · exact Dir.not_und hw' (hdir _ _ h') (h.symm hw')
    · rintro ⟨h1, h2, h3⟩
      have hc := (hug.conn _ _).2 h1
      rcases r.edge u v (ac.adj_ne h1) with h' | ⟨_, h'⟩ | ⟨_, h'⟩
      · have := hug.und u v hc
        unfold Und at *
        rw [h']; exact this
      · exact absurd h' h2
      · exact absurd h' h3

/-- The extensions of the pattern are the DAGs with the same adjacencies and unshielded colliders. -/
theorem IsPattern.extends_iff (h : IsPattern N D g) (ac : Acyclic D) (D' : α → α → Prop) :
    Extends D' g ↔ Acyclic D' ∧ (∀ u v, Adj D' u v ↔ Adj D u v) ∧ ∀ u w v, VStruct D' u w v ↔ VStruct D u w v := by
  constructor
  · intro hx
    have hadj : ∀ u v, Adj D' u v ↔ Adj D u v := by
      intro u v
      rw [hx.adj, h.conn]
      exact ⟨fun h => h.2, fun h => ⟨ac.adj_ne h, h⟩⟩
    refine ⟨hx.acyclic, hadj, fun u w v => ⟨?_, ?_⟩⟩
    · rintro ⟨h1, h2, h3, h4⟩
      obtain ⟨d1, d2⟩ := hx.collider u w v h1 h2 h3 h4
      obtain ⟨_, _, d1, _⟩ := (h.dir _ _).1 d1
      obtain ⟨_, _, d2, _⟩ := (h.dir _ _).1 d2
      exact ⟨h1, d1, d2, fun h => h4 ((hadj _ _).2 h)⟩
    · rintro ⟨h1, h2, h3, h4⟩
      exact ⟨h1, hx.dir _ _ ((h.dir _ _).2 ⟨v, h1, h2, h3, h4⟩),
        hx.dir _ _ ((h.dir _ _).2 ⟨u, h1.symm, h3, h2, fun h => h4 h.symm⟩), fun h => h4 ((hadj _ _).1 h)⟩
  · rintro ⟨h1, h2, h3⟩
    refine ⟨h1, fun u v => ?_, fun u v hd => ?_, fun u w v huv a b hn => ?_⟩
    · rw [h2, h.conn]
      exact ⟨fun h => ⟨ac.adj_ne h, h⟩, fun h => h.2⟩
    · obtain ⟨x, hx⟩ := (h.dir _ _).1 hd
      exact ((h3 _ _ _).2 hx).2.1
    · have hv := (h3 u w v).1 ⟨huv, a, b, hn⟩
      exact ⟨(h.dir _ _).2 ⟨v, hv⟩, (h.dir _ _).2 ⟨u, hv.1.symm, hv.2.2.1, hv.2.1, fun h => hv.2.2.2 h.symm⟩⟩

/-! ### dag2cpdag -/

variable {dag : Graph α}

/-- Evidence gathered so far by `dag2cpdag`: proof device. -/
structure CI (N : List α) (A : α → α → List α → Prop) (s : Graph α × Sep α) : Prop where
  ug : UG N (KeepOf N A) s.1
  sep : SepOf N A s.2

theorem CI.congr {A A' : α → α → List α → Prop} {s : Graph α × Sep α} (h : CI N A s) (hA : ∀ a b z, A a b z ↔ A' a b z) :
    CI N A' s := by
  have : A = A' := by funext a b z; exact propext (hA a b z)
  exact this ▸ h

theorem cpdagZ_spec (hd : dag.DG) (hn : dag.nodeList = N) {A : α → α → List α → Prop} {s : Graph α × Sep α} (h : CI N A s)
    {u v : α} {z : List α} (hl : Legal N u v z) :
    OkP (CI N (fun a b y => A a b y ∨ (a = u ∧ b = v ∧ y = z ∧ DSep (Dir dag) u v (fun w => w ∈ z)))) (cpdagZ dag u v s z) := by
  obtain ⟨hu, hv, huv, hz, hnd, huz, hvz⟩ := hl
  obtain ⟨b, hb, hbi⟩ := isDSeparate_iff (y := v) hd (by rw [hn]; exact hu) (by rw [hn]; exact hz) huz hvz
  unfold cpdagZ
  rw [hb]
  simp only [bind, Except.bind]
  cases b with
  | false =>
    rw [if_neg (by simp)]
    have : ¬ DSep (Dir dag) u v (fun w => w ∈ z) := fun h => by simpa using hbi.2 h
    exact ⟨s, rfl, h.congr (fun a b y => by simp [this])⟩
  | true =>
    rw [if_pos rfl]
    have hds := hbi.1 rfl
    obtain ⟨sep', e', hs'⟩ := sepAdd_ok h.sep hu hv huv z
    rw [e']
    simp only
    have hsep : SepOf N (fun a b y => A a b y ∨ (a = u ∧ b = v ∧ y = z ∧ DSep (Dir dag) u v (fun w => w ∈ z))) sep' :=
      hs'.congr (fun a b y => by simp [hds])
    rw [h.ug.isConnected hu hv]
    obtain ⟨g1, e1, h1⟩ := h.ug.remove hu hv
    have keep : ∀ a b, (KeepOf N A a b ∧ ¬ (a = u ∧ b = v) ∧ ¬ (a = v ∧ b = u)) ↔
        KeepOf N (fun a b y => A a b y ∨ (a = u ∧ b = v ∧ y = z ∧ DSep (Dir dag) u v (fun w => w ∈ z))) a b := by
      intro a b
      unfold KeepOf
      constructor
      · rintro ⟨⟨k1, k2, k3, k4⟩, k5, k6⟩
        refine ⟨k1, k2, k3, fun y => ⟨?_, ?_⟩⟩
        · rintro (k | ⟨k, k', _⟩)
          · exact (k4 y).1 k
          · exact k5 ⟨k, k'⟩
        · rintro (k | ⟨k, k', _⟩)
          · exact (k4 y).2 k
          · exact k6 ⟨k', k⟩
      · rintro ⟨k1, k2, k3, k4⟩
        refine ⟨⟨k1, k2, k3, fun y => ⟨fun k => (k4 y).1 (Or.inl k), fun k => (k4 y).2 (Or.inl k)⟩⟩, ?_, ?_⟩
        · rintro ⟨rfl, rfl⟩; exact (k4 z).1 (Or.inr ⟨rfl, rfl, rfl, hds⟩)
        · rintro ⟨rfl, rfl⟩; exact (k4 z).2 (Or.inr ⟨rfl, rfl, rfl, hds⟩)
    classical
    by_cases hk : KeepOf N A u v
    · refine ⟨(g1, sep'), by simp [hk, e1, pure, Except.pure], h1.congr keep, hsep⟩
    · refine ⟨(s.1, sep'), by simp [hk, pure, Except.pure], h.ug.congr (fun a b => ?_), hsep⟩
      rw [← keep]
      constructor
      · intro hab
        refine ⟨hab, ?_, ?_⟩
        · rintro ⟨rfl, rfl⟩; exact hk hab
        · rintro ⟨rfl, rfl⟩; exact hk (h.ug.symm hab)
      · exact fun hab => hab.1

theorem cpdagZs_spec (hd : dag.DG) (hn : dag.nodeList = N) {A : α → α → List α → Prop} {s : Graph α × Sep α} (h : CI N A s)
    {u v : α} (zs : List (List α)) (hz : ∀ z ∈ zs, Legal N u v z) :
    OkP (CI N (fun a b y => A a b y ∨ (a = u ∧ b = v ∧ y ∈ zs ∧ DSep (Dir dag) u v (fun w => w ∈ y))))
      (zs.foldlM (cpdagZ dag u v) s) := by
  have := foldlM_ends (F := fun _ => False) (f := cpdagZ dag u v)
    (P := fun p => CI N (fun a b y => A a b y ∨ (a = u ∧ b = v ∧ y ∈ p ∧ DSep (Dir dag) u v (fun w => w ∈ y)))) zs s
    (h.congr (fun a b y => by simp)) (by
      rintro p z s1 ⟨t, ht⟩ h1
      obtain ⟨s2, e2, h2⟩ := cpdagZ_spec hd hn h1 (hz z (by rw [ht]; simp))
      rw [e2]
      refine h2.congr (fun a b y => ?_)
      rw [List.mem_append, List.mem_singleton]
      constructor
      · rintro ((k | ⟨k1, k2, k3, k4⟩) | ⟨k1, k2, rfl, k4⟩)
        · exact Or.inl k
        · exact Or.inr ⟨k1, k2, Or.inl k3, k4⟩
        · exact Or.inr ⟨k1, k2, Or.inr rfl, k4⟩
      · rintro (k | ⟨k1, k2, k3 | rfl, k4⟩)
        · exact Or.inl (Or.inl k)
        · exact Or.inl (Or.inr ⟨k1, k2, k3, k4⟩)
        · exact Or.inr ⟨k1, k2, rfl, k4⟩)
  exact this.ok (fun _ h => h)

/-- The evidence `B` is sound, and complete for the sets satisfying `C`: proof device. -/
structure Ev (N : List α) (D : α → α → Prop) (C : α → α → List α → Prop) (s : Graph α × Sep α) : Prop where
  ev : ∃ B, CI N B s ∧ (∀ a b y, B a b y → Legal N a b y ∧ DSep D a b (fun w => w ∈ y)) ∧
    ∀ a b y, Legal N a b y → C a b y → DSep D a b (fun w => w ∈ y) → ∃ y', B a b y' ∧ y'.Perm y

theorem cpdagPair_spec {so : List α → List α} (hso : ∀ l, (so l).Perm l) (hd : dag.DG) (hn : dag.nodeList = N)
    {C : α → α → List α → Prop} {s : Graph α × Sep α} (h : Ev N (Dir dag) C s) {p : α × α}
    (hu : p.1 ∈ N) (hv : p.2 ∈ N) (huv : p.1 ≠ p.2) :
    OkP (Ev N (Dir dag) (fun a b y => C a b y ∨ (a = p.1 ∧ b = p.2 ∧ y.length < N.length - 1)))
      (cpdagPair so dag N.length s p) := by
  unfold cpdagPair
  have := foldlM_ends (F := fun _ => False)
    (f := fun (s : Graph α × Sep α) k =>
      (combinations (so (s.1.nodeSet.filter (fun w => w ≠ p.1 ∧ w ≠ p.2))) k).foldlM (cpdagZ dag p.1 p.2) s)
    (P := fun ks s1 => Ev N (Dir dag) (fun a b y => C a b y ∨ (a = p.1 ∧ b = p.2 ∧ y.length ∈ ks)) s1)
    (List.range (N.length - 1)) s (by simpa using h) (by
      rintro ks k s1 _ ⟨B, h1, hB, hC⟩
      have hw := h1.ug.pg.wf
      have hsm : ∀ w, w ∈ so (s1.1.nodeSet.filter (fun w => w ≠ p.1 ∧ w ≠ p.2)) ↔ w ∈ N ∧ w ≠ p.1 ∧ w ≠ p.2 := by
        intro w
        rw [(hso _).mem_iff]
        simp only [List.mem_filter, decide_eq_true_eq, hw.mem_set, h1.ug.nodes]
      have hsn : (so (s1.1.nodeSet.filter (fun w => w ≠ p.1 ∧ w ≠ p.2))).Nodup :=
        (hso _).nodup_iff.2 (hw.setNodup.filter _)
      generalize hS : so (s1.1.nodeSet.filter (fun w => w ≠ p.1 ∧ w ≠ p.2)) = S at hsm hsn
      obtain ⟨s2, e2, h2⟩ := cpdagZs_spec (u := p.1) (v := p.2) hd hn h1 (combinations S k) (by
        intro z hz
        rw [mem_combinations_iff] at hz
        have hm : ∀ w ∈ z, w ∈ N ∧ w ≠ p.1 ∧ w ≠ p.2 := fun w hw => (hsm w).1 (hz.1.subset hw)
        exact ⟨hu, hv, huv, fun w hw => (hm w hw).1, hz.1.nodup hsn,
          fun hc => (hm _ hc).2.1 rfl, fun hc => (hm _ hc).2.2 rfl⟩)
      rw [e2]
      refine ⟨_, h2, ?_, ?_⟩
      · rintro a b y (hb | ⟨rfl, rfl, hy, hds⟩)
        · exact hB _ _ _ hb
        · refine ⟨?_, hds⟩
          rw [mem_combinations_iff] at hy
          have hm : ∀ w ∈ y, w ∈ N ∧ w ≠ p.1 ∧ w ≠ p.2 := fun w hw => (hsm w).1 (hy.1.subset hw)
          exact ⟨hu, hv, huv, fun w hw => (hm w hw).1, hy.1.nodup hsn,
            fun hc => (hm _ hc).2.1 rfl, fun hc => (hm _ hc).2.2 rfl⟩
      · intro a b y hl hc hds
        by_cases hnew : a = p.1 ∧ b = p.2 ∧ y.length = k
        · obtain ⟨rfl, rfl, hk⟩ := hnew
          have hperm := nodup_perm_filter (L := S) (z := y) hsn hl.2.2.2.2.1 (fun w hw =>
            (hsm w).2 ⟨hl.2.2.2.1 w hw, fun c => hl.2.2.2.2.2.1 (c ▸ hw), fun c => hl.2.2.2.2.2.2 (c ▸ hw)⟩)
          refine ⟨_, Or.inr ⟨rfl, rfl, mem_combinations_iff.2 ⟨List.filter_sublist, hperm.length_eq.trans hk⟩, ?_⟩, hperm⟩
          exact (dsep_congr (fun w => hperm.mem_iff.symm) _ _).1 hds
        · obtain ⟨y', h', hp⟩ := hC a b y hl (by
            rcases hc with hc | ⟨c1, c2, c3⟩
            · exact Or.inl hc
            · rw [List.mem_append, List.mem_singleton] at c3
              exact Or.inr ⟨c1, c2, c3.resolve_right (fun c => hnew ⟨c1, c2, c⟩)⟩) hds
          exact ⟨y', Or.inl h', hp⟩)
  obtain ⟨s', e', h'⟩ := this.ok (fun _ h => h)
  refine ⟨s', e', ?_⟩
  simpa only [List.mem_range] using h'

omit [DecidableEq α] in
/-- Non-adjacent nodes of a DAG have a separating set among the other nodes. -/
theorem exists_legal_sep (ac : Acyclic D) (hD : ∀ u v, D u v → u ∈ N ∧ v ∈ N) (hN : N.Nodup) {u v : α} (hu : u ∈ N) (hv : v ∈ N)
    (huv : u ≠ v) (hna : ¬ Adj D u v) : ∃ z, Legal N u v z ∧ z.length < N.length - 1 ∧ DSep D u v (fun w => w ∈ z) := by
  classical
  have main : ∀ x y, x ∈ N → y ∈ N → x ≠ y → ¬ Adj D x y → ¬ Desc D y x →
      ∃ z, Legal N x y z ∧ z.length < N.length - 1 ∧ DSep D x y (fun w => w ∈ z) := by
    intro x y hx hy hxy hna hnd
    have hsep := dsep_parents ac hxy hna hnd
    let z := N.filter (fun w => decide (D w y))
    have hz : ∀ w, w ∈ z ↔ D w y := by
      intro w
      simp only [z, List.mem_filter, decide_eq_true_eq]
      exact ⟨fun h => h.2, fun h => ⟨(hD _ _ h).1, h⟩⟩
    have hznd : z.Nodup := hN.filter _
    have hxz : x ∉ z := fun h => hna (Or.inl ((hz x).1 h))
    have hyz : y ∉ z := fun h => ac.irrefl y ((hz y).1 h)
    have hzN : ∀ w ∈ z, w ∈ N := fun w hw => (hD _ _ ((hz w).1 hw)).1
    refine ⟨z, ⟨hx, hy, hxy, hzN, hznd, hxz, hyz⟩, ?_, (dsep_congr (fun w => (hz w).symm) _ _).1 hsep⟩
    have h1 : (x :: y :: z).Nodup := by simp [hxy, hxz, hyz, hznd]
    have h2 : (x :: y :: z).Subperm N := h1.subperm (by
      intro w hw
      simp only [List.mem_cons] at hw
      rcases hw with rfl | rfl | hw
      · exact hx
      · exact hy
      · exact hzN w hw)
    have := h2.length_le
    simp at this
    omega
  by_cases hd : Desc D v u
  · obtain ⟨z, h1, h2, h3⟩ := main v u hv hu huv.symm (fun h => hna h.symm) (fun hd' => by
      rcases (Relation.reflTransGen_iff_eq_or_transGen.1 hd) with h | h
      · exact huv h
      · exact ac _ (h.trans_left hd'))
    exact ⟨z, ⟨h1.2.1, h1.1, h1.2.2.1.symm, h1.2.2.2.1, h1.2.2.2.2.1, h1.2.2.2.2.2.2, h1.2.2.2.2.2.1⟩, h2, h3.symm⟩
  · exact main u v hu hv huv hna hd

/-- The loops of `dag2cpdag` give the skeleton and true separating sets. -/
theorem cpdagSkeleton_spec {so : List α → List α} (hso : ∀ l, (so l).Perm l) (hd : dag.DG) (hn : dag.nodeList = N)
    (ac : Acyclic (Dir dag)) : ∃ s B, cpdagSkeleton so dag = .ok s ∧ UG N (Adj (Dir dag)) s.1 ∧
      (∀ a b z, B a b z → DSep (Dir dag) a b (fun w => w ∈ z)) ∧
      (∀ a ∈ N, ∀ b ∈ N, a ≠ b → ¬ Adj (Dir dag) a b → ∃ z, B a b z ∨ B b a z) ∧ SepOf N B s.2 := by
  have hN : N.Nodup := hn ▸ hd.wf.nodup
  have hD : ∀ u v, Dir dag u v → u ∈ N ∧ v ∈ N := fun u v h => by rw [← hn]; exact Dir.mem hd.wf h
  obtain ⟨g0, e0⟩ := (init_ok_iff .pdag N).2 hN
  obtain ⟨g1, e1, h1⟩ := createComplete_ok e0
  unfold cpdagSkeleton
  have hn' : dag.nodes = N := hn
  have hn1 : g1.nodes = N := h1.nodes
  have hnum : dag.numberOfNodes = N.length := by unfold numberOfNodes; rw [hn']
  rw [hn', e0]
  simp only [bind, Except.bind]
  rw [e1]
  simp only
  rw [hn1, hnum]
  have := foldlM_ends (F := fun _ => False) (f := cpdagPair so dag N.length)
    (P := fun ps s1 => Ev N (Dir dag) (fun a b y => (a, b) ∈ ps ∧ y.length < N.length - 1) s1) (pairs N) (g1, sepInit N)
    ⟨fun _ _ _ => False, ⟨h1.congr (fun u v => by unfold KeepOf; tauto), sepOf_init hN⟩, by simp, by simp⟩ (by
      rintro ps ⟨a, b⟩ s1 ⟨t, ht⟩ hs1
      have hmem : (a, b) ∈ pairs N := by rw [ht]; simp
      have hab := mem_pairs_mem hmem
      obtain ⟨s2, e2, h2⟩ := cpdagPair_spec (p := (a, b)) hso hd hn hs1 hab.1 hab.2 (mem_pairs_ne hN hmem)
      rw [e2]
      show Ev _ _ _ _
      obtain ⟨B, b1, b2, b3⟩ := h2
      refine ⟨B, b1, b2, fun x y z hl hc hds => b3 x y z hl ?_ hds⟩
      obtain ⟨hc, hlen⟩ := hc
      rw [List.mem_append, List.mem_singleton] at hc
      rcases hc with hc | hc
      · exact Or.inl ⟨hc, hlen⟩
      · simp only [Prod.mk.injEq] at hc
        exact Or.inr ⟨hc.1, hc.2, hlen⟩)
  obtain ⟨s, e, B, b1, b2, b3⟩ := this.ok (fun _ h => h)
  have hne : ∀ a ∈ N, ∀ b ∈ N, a ≠ b → ¬ Adj (Dir dag) a b → ∃ z, B a b z ∨ B b a z := by
    intro a ha b hb hab hna
    rcases pairs_complete ha hb hab with hp | hp
    · obtain ⟨z, z1, z2, z3⟩ := exists_legal_sep ac hD hN ha hb hab hna
      obtain ⟨y, hy, _⟩ := b3 a b z z1 ⟨hp, z2⟩ z3
      exact ⟨y, Or.inl hy⟩
    · obtain ⟨z, z1, z2, z3⟩ := exists_legal_sep ac hD hN hb ha hab.symm (fun h => hna h.symm)
      obtain ⟨y, hy, _⟩ := b3 b a z z1 ⟨hp, z2⟩ z3
      exact ⟨y, Or.inr hy⟩
  refine ⟨s, B, e, b1.ug.congr (fun u v => ?_), fun a b z h => (b2 a b z h).2, hne, b1.sep⟩
  constructor
  · rintro ⟨h1, h2, h3, h4⟩
    by_contra hna
    obtain ⟨z, hz | hz⟩ := hne u h1 v h2 h3 hna
    · exact (h4 z).1 hz
    · exact (h4 z).2 hz
  · intro hadj
    have hne := ac.adj_ne hadj
    have hm : u ∈ N ∧ v ∈ N := by
      rcases hadj with h | h
      · exact hD _ _ h
      · exact (hD _ _ h).symm
    exact ⟨hm.1, hm.2, hne, fun z => ⟨fun h => not_dsep_of_adj hne hadj (b2 _ _ _ h).2,
      fun h => not_dsep_of_adj hne.symm hadj.symm (b2 _ _ _ h).2⟩⟩

/-- Before Meek's rules `dag2cpdag` has the pattern. -/
theorem cpdag_pattern {so : List α → List α} (hso : ∀ l, (so l).Perm l) (hd : dag.DG) (ac : Acyclic (Dir dag)) :
    ∃ s g1, cpdagSkeleton so dag = .ok s ∧ s.1.rule0 s.2 = .ok g1 ∧ IsPattern dag.nodes (Dir dag) g1 := by
  obtain ⟨s, B, e, h1, h2, h3, h4⟩ := cpdagSkeleton_spec hso hd rfl ac
  obtain ⟨g1, e1, h5⟩ := rule0_pattern ac h1 h2 h3 h4
  exact ⟨s, g1, e, e1, h5⟩

end Graph
end Cdmir
