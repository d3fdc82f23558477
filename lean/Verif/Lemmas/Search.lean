import Verif.Lemmas.Skeleton
import Verif.Lemmas.DSepFacts

/-! The loops of `adjacency_search`. -/

namespace Cdmir
open Spec

section
variable {α σ P : Type}

theorem _root_.Cdmir.Spec.Answers.append {test : CITest α σ P} {s s1 s2 : σ} {t1 t2 : List (Asked α P)}
    (h1 : Answers test s t1 s1) (h2 : Answers test s1 t2 s2) : Answers test s (t1 ++ t2) s2 := by
  induction t1 generalizing s with
  | nil => cases h1; exact h2
  | cons q t ih =>
    obtain ⟨s', e, h⟩ := h1
    exact ⟨s', e, ih h⟩

theorem _root_.Cdmir.Spec.Answers.mem {test : CITest α σ P} {s s' : σ} {tr : List (Asked α P)} (h : Answers test s tr s')
    {q : Asked α P} (hq : q ∈ tr) : ∃ s1 s2, test q.u q.v q.z s1 = .ok (q.p, s2) := by
  induction tr generalizing s with
  | nil => simp at hq
  | cons q' t ih =>
    obtain ⟨s1, e, h⟩ := h
    rcases List.mem_cons.1 hq with rfl | hq
    · exact ⟨s, s1, e⟩
    · exact ih h hq

variable [LE P] {alpha : P}

theorem accepted_append (t1 t2 : List (Asked α P)) (u v : α) (z : List α) :
    Accepted alpha (t1 ++ t2) u v z ↔ Accepted alpha t1 u v z ∨ Accepted alpha t2 u v z := by
  unfold Accepted
  simp only [List.mem_append]
  constructor
  · rintro ⟨p, h, h' | h'⟩
    · exact Or.inl ⟨p, h, h'⟩
    · exact Or.inr ⟨p, h, h'⟩
  · rintro (⟨p, h, h'⟩ | ⟨p, h, h'⟩)
    · exact ⟨p, h, Or.inl h'⟩
    · exact ⟨p, h, Or.inr h'⟩

theorem accepted_single (u v : α) (z : List α) (p : P) (a b : α) (y : List α) :
    Accepted alpha [⟨u, v, z, p⟩] a b y ↔ alpha ≤ p ∧ a = u ∧ b = v ∧ y = z := by
  unfold Accepted
  simp only [List.mem_singleton, Asked.mk.injEq]
  constructor
  · rintro ⟨q, h, rfl, rfl, rfl, rfl⟩; exact ⟨h, rfl, rfl, rfl⟩
  · rintro ⟨h, rfl, rfl, rfl⟩; exact ⟨p, h, rfl, rfl, rfl, rfl⟩

end

namespace Graph
variable {α σ P : Type} [DecidableEq α] [LE P] [DecidableLE P]

/-- What was asked, without the answer: proof device. -/
def key (q : Asked α P) : α × α × List α := (q.u, q.v, q.z)

variable {test : CITest α σ P} {alpha : P} {N : List α} {st0 : σ}

/-- Invariant inside a level: proof device. -/
structure LI (test : CITest α σ P) (alpha : P) (N : List α) (st0 : σ) (tr0 lev : List (Asked α P)) (s : LevelState α σ) :
    Prop where
  ans : Answers test st0 (tr0 ++ lev) s.st
  sep : SepOf N (Accepted alpha (tr0 ++ lev)) s.sep
  rem : ∀ a b, (a, b) ∈ s.rem ↔ ∃ z, Accepted alpha lev a b z
  legal : ∀ q ∈ tr0 ++ lev, Legal N q.u q.v q.z

theorem searchZ_spec {tr0 lev : List (Asked α P)} {s : LevelState α σ} (h : LI test alpha N st0 tr0 lev s) {u v : α}
    {z : List α} (hz : Legal N u v z) :
    Ends (fun s' => ∃ p, LI test alpha N st0 tr0 (lev ++ [⟨u, v, z, p⟩]) s') (Raised test N st0)
      (searchZ test alpha u v s z) := by
  unfold searchZ
  cases e : test u v z s.st with
  | error x => exact ⟨tr0 ++ lev, s.st, u, v, z, h.ans, h.legal, hz, e⟩
  | ok r =>
    obtain ⟨p, st⟩ := r
    have hans : Answers test st0 (tr0 ++ (lev ++ [⟨u, v, z, p⟩])) st := by
      rw [← List.append_assoc]
      exact h.ans.append ⟨st, e, rfl⟩
    have hacc : ∀ a b y, Accepted alpha (tr0 ++ (lev ++ [⟨u, v, z, p⟩])) a b y ↔
        Accepted alpha (tr0 ++ lev) a b y ∨ (alpha ≤ p ∧ a = u ∧ b = v ∧ y = z) := by
      intro a b y
      rw [← List.append_assoc, accepted_append, accepted_single]
    have hacc' : ∀ a b y, Accepted alpha (lev ++ [⟨u, v, z, p⟩]) a b y ↔
        Accepted alpha lev a b y ∨ (alpha ≤ p ∧ a = u ∧ b = v ∧ y = z) := by
      intro a b y
      rw [accepted_append, accepted_single]
    have hleg : ∀ q ∈ tr0 ++ (lev ++ [⟨u, v, z, p⟩]), Legal N q.u q.v q.z := by
      intro q hq
      rw [← List.append_assoc, List.mem_append, List.mem_singleton] at hq
      rcases hq with hq | rfl
      · exact h.legal q hq
      · exact hz
    simp only [bind, Except.bind]
    by_cases hp : alpha ≤ p
    · rw [if_pos hp]
      obtain ⟨sep', e', hs'⟩ := sepAdd_ok h.sep hz.1 hz.2.1 hz.2.2.1 z
      rw [e']
      refine ⟨p, hans, hs'.congr (fun a b y => ?_), ?_, hleg⟩
      · rw [hacc]; simp [hp]
      · intro a b
        simp only [hacc', List.mem_append, List.mem_singleton, Prod.mk.injEq, h.rem]
        constructor
        · rintro (⟨y, hy⟩ | ⟨rfl, rfl⟩)
          · exact ⟨y, Or.inl hy⟩
          · exact ⟨z, Or.inr ⟨hp, rfl, rfl, rfl⟩⟩
        · rintro ⟨y, hy | ⟨_, rfl, rfl, _⟩⟩
          · exact Or.inl ⟨y, hy⟩
          · exact Or.inr ⟨rfl, rfl⟩
    · rw [if_neg hp]
      refine ⟨p, hans, h.sep.congr (fun a b y => ?_), ?_, hleg⟩
      · rw [hacc]; simp [hp]
      · intro a b
        simp only [hacc', hp, false_and, or_false, h.rem]

theorem searchZs_spec {tr0 lev : List (Asked α P)} {s : LevelState α σ} (h : LI test alpha N st0 tr0 lev s) {u v : α}
    (zs : List (List α)) (hz : ∀ z ∈ zs, Legal N u v z) :
    Ends (fun s' => ∃ l1, l1.map key = zs.map (fun z => (u, v, z)) ∧ LI test alpha N st0 tr0 (lev ++ l1) s')
      (Raised test N st0) (zs.foldlM (searchZ test alpha u v) s) := by
  refine foldlM_ends (P := fun p s' => ∃ l1, l1.map key = p.map (fun z => (u, v, z)) ∧
    LI test alpha N st0 tr0 (lev ++ l1) s') zs s ⟨[], rfl, by rwa [List.append_nil]⟩ ?_
  rintro p z s' ⟨t, ht⟩ ⟨l1, hl1, hi⟩
  refine (searchZ_spec hi (hz z (by rw [ht]; simp))).mono ?_ (fun _ h => h)
  rintro s'' ⟨q, hq⟩
  refine ⟨l1 ++ [⟨u, v, z, q⟩], by simp [hl1, key], by rwa [← List.append_assoc]⟩

/-- The questions asked for one ordered pair: proof device. -/
def pairQueries (g : Graph α) (k : Nat) (p : α × α) : List (α × α × List α) :=
  if (g.mark p.1 p.2).isSome then (combinations ((g.nbrs p.1).erase p.2) k).map (fun z => (p.1, p.2, z)) else []

theorem searchPair_spec {g : Graph α} {A : α → α → List α → Prop} (hg : UG N (KeepOf N A) g) (k : Nat)
    {tr0 lev : List (Asked α P)} {s : LevelState α σ} (h : LI test alpha N st0 tr0 lev s) {p : α × α}
    (hu : p.1 ∈ N) (hv : p.2 ∈ N) (huv : p.1 ≠ p.2) :
    Ends (fun s' => ∃ l1, l1.map key = pairQueries g k p ∧ LI test alpha N st0 tr0 (lev ++ l1) s')
      (Raised test N st0) (searchPair test alpha g k s p) := by
  unfold searchPair pairQueries
  have hw := hg.pg.wf
  have hu' : p.1 ∈ g.nodeList := by rw [hg.nodes]; exact hu
  have hv' : p.2 ∈ g.nodeList := by rw [hg.nodes]; exact hv
  rw [isConnected_ok hw hu' hv']
  simp only [bind, Except.bind]
  cases hm : (g.mark p.1 p.2).isSome
  · simp only [Bool.not_false, if_true]
    exact ⟨[], by simp, by rwa [List.append_nil]⟩
  · simp only [Bool.not_true]
    rw [getNeighbours_ok hw hu']
    have hmem : p.2 ∈ g.nbrs p.1 := (Graph.mem_nbrs g p.1 p.2).2 hm
    simp only [hmem, if_true, Bool.false_eq_true, if_false]
    refine searchZs_spec h _ (fun z hz => ?_)
    rw [mem_combinations_iff] at hz
    have hnd := nbrs_nodup hw p.1
    have hzw : ∀ w ∈ z, KeepOf N A p.1 w ∧ w ≠ p.2 := by
      intro w hw'
      have := (List.Nodup.mem_erase_iff hnd).1 (hz.1.subset hw')
      exact ⟨(hg.mem_nbrs _ _).1 this.2, this.1⟩
    exact ⟨hu, hv, huv, fun w hw' => (hzw w hw').1.2.1, hz.1.nodup (hnd.erase _),
      fun hc => (hzw _ hc).1.2.2.1 rfl, fun hc => (hzw _ hc).2 rfl⟩

omit [DecidableEq α] in
theorem perms2_mem (hN : N.Nodup) {p : α × α} (hp : p ∈ perms2 N) : p.1 ∈ N ∧ p.2 ∈ N ∧ p.1 ≠ p.2 :=
  (mem_perms2 hN p.1 p.2).1 hp

theorem removePairs_spec {A B : α → α → List α → Prop} {g : Graph α} (hg : UG N (KeepOf N A) g) (rem : List (α × α))
    (hr : ∀ a b, (a, b) ∈ rem ↔ ∃ z, B a b z) (hm : ∀ p ∈ rem, p.1 ∈ N ∧ p.2 ∈ N) {F : Err → Prop} :
    Ends (fun g' => UG N (KeepOf N (fun a b z => A a b z ∨ B a b z)) g') F (rem.foldlM removePair g) := by
  classical
  have key : Ends (fun g' => UG N (fun a b => KeepOf N A a b ∧ (a, b) ∉ rem ∧ (b, a) ∉ rem) g') F
      (rem.foldlM removePair g) := by
    refine foldlM_ends (P := fun p g' => UG N (fun a b => KeepOf N A a b ∧ (a, b) ∉ p ∧ (b, a) ∉ p) g') rem g
      (hg.congr (fun a b => by simp)) ?_
    rintro p x g1 ⟨t, ht⟩ h1
    have hx := hm x (by rw [ht]; simp)
    have step : ∃ g2, removePair g1 x = .ok g2 ∧
        UG N (fun a b => (KeepOf N A a b ∧ (a, b) ∉ p ∧ (b, a) ∉ p) ∧ ¬ (a = x.1 ∧ b = x.2) ∧ ¬ (a = x.2 ∧ b = x.1)) g2 := by
      unfold removePair
      rw [h1.isConnected hx.1 hx.2]
      by_cases hk : KeepOf N A x.1 x.2 ∧ (x.1, x.2) ∉ p ∧ (x.2, x.1) ∉ p
      · simp only [hk, bind, Except.bind]
        exact h1.remove hx.1 hx.2
      · refine ⟨g1, by simp [hk, bind, Except.bind, pure, Except.pure], h1.congr (fun a b => ?_)⟩
        constructor
        · intro hab
          refine ⟨hab, ?_, ?_⟩
          · rintro ⟨rfl, rfl⟩; exact hk hab
          · rintro ⟨rfl, rfl⟩
            exact hk (h1.symm hab)
        · exact fun hab => hab.1
    obtain ⟨g2, e2, h2⟩ := step
    rw [e2]
    refine h2.congr (fun a b => ?_)
    obtain ⟨x1, x2⟩ := x
    simp only [List.mem_append, List.mem_singleton, Prod.mk.injEq]
    tauto
  refine key.mono (fun g' h => h.congr (fun a b => ?_)) (fun _ h => h)
  unfold KeepOf
  rw [hr, hr]
  constructor
  · rintro ⟨⟨h1, h2, h3, h4⟩, h5, h6⟩
    refine ⟨h1, h2, h3, fun z => ⟨?_, ?_⟩⟩
    · rintro (h | h)
      · exact (h4 z).1 h
      · exact h5 ⟨z, h⟩
    · rintro (h | h)
      · exact (h4 z).2 h
      · exact h6 ⟨z, h⟩
  · rintro ⟨h1, h2, h3, h4⟩
    refine ⟨⟨h1, h2, h3, fun z => ⟨fun h => (h4 z).1 (Or.inl h), fun h => (h4 z).2 (Or.inl h)⟩⟩, ?_, ?_⟩
    · rintro ⟨z, h⟩; exact (h4 z).1 (Or.inr h)
    · rintro ⟨z, h⟩; exact (h4 z).2 (Or.inr h)

/-- State between levels: proof device. -/
structure SI (test : CITest α σ P) (alpha : P) (N : List α) (st0 : σ) (tr : List (Asked α P)) (s : Graph α × Sep α × σ) :
    Prop where
  ans : Answers test st0 tr s.2.2
  sep : SepOf N (Accepted alpha tr) s.2.1
  ug : UG N (KeepOf N (Accepted alpha tr)) s.1
  legal : ∀ q ∈ tr, Legal N q.u q.v q.z

theorem nodup_perm_filter {L z : List α} (hL : L.Nodup) (hz : z.Nodup) (hs : ∀ w ∈ z, w ∈ L) :
    (L.filter (fun w => w ∈ z)).Perm z := by
  refine (List.perm_ext_iff_of_nodup (hL.filter _) hz).2 (fun w => ?_)
  simp only [List.mem_filter, decide_eq_true_eq]
  exact ⟨fun h => h.2, fun h => ⟨hs w h, h⟩⟩

theorem searchLevel_spec {tr : List (Asked α P)} {s : Graph α × Sep α × σ} (h : SI test alpha N st0 tr s) (k : Nat) :
    Ends (fun s' => ∃ lev, LevelAsks (KeepOf N (Accepted alpha tr)) k lev ∧ SI test alpha N st0 (tr ++ lev) s')
      (Raised test N st0) (searchLevel test alpha N s k) := by
  have hN := h.ug.nodup
  unfold searchLevel
  have h1 : Ends (fun s' => ∃ l1, l1.map key = (perms2 N).flatMap (pairQueries s.1 k) ∧
      LI test alpha N st0 tr ([] ++ l1) s') (Raised test N st0)
      ((perms2 N).foldlM (searchPair test alpha s.1 k) { rem := [], sep := s.2.1, st := s.2.2 }) := by
    refine foldlM_ends (P := fun p s' => ∃ l1, l1.map key = p.flatMap (pairQueries s.1 k) ∧
      LI test alpha N st0 tr ([] ++ l1) s') _ _ ⟨[], rfl, ?_, ?_, ?_, ?_⟩ ?_
    · simpa using h.ans
    · simpa using h.sep
    · intro a b; simp [Accepted]
    · simpa using h.legal
    · rintro p x s' ⟨t, ht⟩ ⟨l1, e1, hl1⟩
      obtain ⟨m1, m2, m3⟩ := perms2_mem hN (p := x) (by rw [ht]; simp)
      refine (searchPair_spec h.ug k hl1 m1 m2 m3).mono ?_ (fun _ h => h)
      rintro s'' ⟨l2, e2, hl2⟩
      refine ⟨l1 ++ l2, by simp [e1, e2], by rwa [List.append_assoc] at hl2⟩
  refine h1.bind ?_
  rintro r ⟨lev, hkey, hli⟩
  rw [List.nil_append] at hli
  have hq : ∀ u v z, (u, v, z) ∈ lev.map key ↔ (u ∈ N ∧ v ∈ N ∧ u ≠ v) ∧ (s.1.mark u v).isSome ∧
      z ∈ combinations ((s.1.nbrs u).erase v) k := by
    intro u v z
    rw [hkey, List.mem_flatMap]
    constructor
    · rintro ⟨⟨a, b⟩, hp, hz⟩
      unfold pairQueries at hz
      split_ifs at hz with hc
      · simp only [List.mem_map, Prod.mk.injEq] at hz
        obtain ⟨y, hy, rfl, rfl, rfl⟩ := hz
        exact ⟨perms2_mem hN hp, hc, hy⟩
      · simp at hz
    · rintro ⟨hm, hc, hz⟩
      refine ⟨(u, v), (mem_perms2 hN u v).2 hm, ?_⟩
      unfold pairQueries
      rw [if_pos hc]
      simp only [List.mem_map, Prod.mk.injEq, true_and, exists_eq_right]
      exact hz
  have hasks : LevelAsks (KeepOf N (Accepted alpha tr)) k lev := by
    constructor
    · intro q hq'
      obtain ⟨_, hc, hz⟩ := (hq q.u q.v q.z).1 (List.mem_map.2 ⟨q, hq', rfl⟩)
      rw [mem_combinations_iff] at hz
      have hnd := nbrs_nodup h.ug.pg.wf q.u
      refine ⟨(h.ug.mark _ _).1 hc, hz.1.nodup (hnd.erase _), hz.2, fun w hw => ?_⟩
      have := (List.Nodup.mem_erase_iff hnd).1 (hz.1.subset hw)
      exact ⟨(h.ug.mem_nbrs _ _).1 this.2, this.1⟩
    · intro u v z hk hnd hlen hz
      have hmem := h.ug.mem hk
      have hnn := (nbrs_nodup h.ug.pg.wf u).erase v
      have hperm := nodup_perm_filter hnn hnd (fun w hw =>
        (List.Nodup.mem_erase_iff (nbrs_nodup h.ug.pg.wf u)).2 ⟨(hz w hw).2, (h.ug.mem_nbrs _ _).2 (hz w hw).1⟩)
      have := (hq u v _).2 ⟨⟨hmem.1, hmem.2, hk.2.2.1⟩, (h.ug.mark _ _).2 hk,
        mem_combinations_iff.2 ⟨List.filter_sublist, hperm.length_eq.trans hlen⟩⟩
      obtain ⟨q, hq1, hq2⟩ := List.mem_map.1 this
      unfold key at hq2
      simp only [Prod.mk.injEq] at hq2
      exact ⟨q, hq1, hq2.1, hq2.2.1, by rw [hq2.2.2]; exact hperm⟩
  have hacc_mem : ∀ a b z, Accepted alpha lev a b z → a ∈ N ∧ b ∈ N := by
    rintro a b z ⟨p, _, hp⟩
    have := (hq a b z).1 (List.mem_map.2 ⟨_, hp, rfl⟩)
    exact ⟨this.1.1, this.1.2.1⟩
  refine (removePairs_spec h.ug r.rem hli.rem ?_).bind ?_
  · rintro ⟨a, b⟩ hp
    obtain ⟨z, hz⟩ := (hli.rem a b).1 hp
    exact hacc_mem a b z hz
  · intro g' hg'
    refine ⟨lev, hasks, hli.ans, hli.sep, hg'.congr (fun a b => ?_), hli.legal⟩
    unfold KeepOf
    simp only [accepted_append]

theorem adjacencySearch_spec (hN : N.Nodup) :
    Ends (fun s' => ∃ tr, Levels alpha N (N.length - 1) tr ∧ SI test alpha N st0 tr s')
      (Raised test N st0) (adjacencySearch test N alpha st0) := by
  obtain ⟨g0, h0⟩ := (init_ok_iff .pdag N).2 hN
  obtain ⟨g, e, hg⟩ := createComplete_ok h0
  unfold adjacencySearch
  rw [h0]
  simp only [bind, Except.bind, e]
  have hbase : SI test alpha N st0 [] (g, sepInit g.nodes, st0) := by
    refine ⟨rfl, ?_, hg.congr (fun a b => ?_), by simp⟩
    · show SepOf N _ (sepInit g.nodeList)
      rw [hg.nodes]
      exact (sepOf_init hN).congr (fun a b z => by simp [Accepted])
    · simp [KeepOf, Accepted]
  have := foldlM_ends (P := fun p s' => ∃ tr, Levels alpha N p.length tr ∧ SI test alpha N st0 tr s')
    (F := Raised test N st0) (f := searchLevel test alpha N) (List.range (N.length - 1)) (g, sepInit g.nodes, st0)
    ⟨[], Levels.zero, hbase⟩ (by
      rintro p k s' ⟨t, ht⟩ ⟨tr, hl, hs⟩
      have hk : k = p.length := by
        have h1 : (List.range (N.length - 1))[p.length]? = some k := by rw [ht]; simp
        rw [List.getElem?_eq_some_iff] at h1
        obtain ⟨h1, h2⟩ := h1
        simpa using h2.symm
      subst hk
      refine (searchLevel_spec hs p.length).mono ?_ (fun _ h => h)
      rintro s'' ⟨lev, ha, hsi⟩
      exact ⟨tr ++ lev, by rw [List.length_append]; exact Levels.succ hl ha, hsi⟩)
  simpa using this

omit [DecidableEq α] [DecidableLE P] in
theorem levels_split {n : Nat} {tr : List (Asked α P)} (h : Levels alpha N n tr) {k : Nat} (hk : k < n) :
    ∃ trk lev rest, tr = trk ++ lev ++ rest ∧ Levels alpha N k trk ∧ LevelAsks (KeepOf N (Accepted alpha trk)) k lev := by
  induction h with
  | zero => omega
  | @succ j tr lev h hl ih =>
    by_cases hkj : k = j
    · subst hkj
      exact ⟨tr, lev, [], by simp, h, hl⟩
    · obtain ⟨t1, l1, r1, rfl, h1, h2⟩ := ih (by omega)
      exact ⟨t1, l1, r1 ++ lev, by simp, h1, h2⟩

omit [DecidableEq α] [DecidableLE P] in
theorem perfect_answers {D : α → α → Prop} {I : σ → Prop} (hp : Perfect D N alpha test I) {tr : List (Asked α P)}
    {s s' : σ} (ha : Answers test s tr s') (hs : I s) (hl : ∀ q ∈ tr, Legal N q.u q.v q.z) :
    I s' ∧ ∀ q ∈ tr, (alpha ≤ q.p ↔ DSep D q.u q.v (fun w => w ∈ q.z)) := by
  induction tr generalizing s with
  | nil => cases ha; exact ⟨hs, by simp⟩
  | cons q t ih =>
    obtain ⟨s1, e, ha⟩ := ha
    obtain ⟨p, s2, e', hi, hd⟩ := hp q.u q.v q.z (hl q (by simp)) s hs
    rw [e] at e'
    cases e'
    obtain ⟨h1, h2⟩ := ih ha hi (fun q hq => hl q (by simp [hq]))
    refine ⟨h1, fun q' hq' => ?_⟩
    rcases List.mem_cons.1 hq' with rfl | hq'
    · exact hd
    · exact h2 q' hq'

omit [DecidableEq α] [DecidableLE P] in
theorem perfect_not_raised {D : α → α → Prop} {I : σ → Prop} (hp : Perfect D N alpha test I) {s : σ} (hs : I s) (e : Err) :
    ¬ Raised test N s e := by
  rintro ⟨tr, s1, u, v, z, ha, hl, hz, he⟩
  obtain ⟨hi, _⟩ := perfect_answers hp ha hs hl
  obtain ⟨p, s2, e', _⟩ := hp u v z hz s1 hi
  rw [he] at e'
  cases e'

omit [DecidableEq α] [DecidableLE P] in
/-- The skeleton found with a perfect oracle. -/
theorem levels_skeleton {D : α → α → Prop} (ac : Acyclic D) (hD : ∀ u v, D u v → u ∈ N ∧ v ∈ N) {tr : List (Asked α P)}
    (hN : N.Nodup) (hl : Levels alpha N (N.length - 1) tr)
    (hleg : ∀ q ∈ tr, Legal N q.u q.v q.z)
    (hp : ∀ q ∈ tr, (alpha ≤ q.p ↔ DSep D q.u q.v (fun w => w ∈ q.z))) (u v : α) :
    KeepOf N (Accepted alpha tr) u v ↔ Adj D u v := by
  classical
  have hacc : ∀ {t : List (Asked α P)}, (∀ q ∈ t, q ∈ tr) → ∀ a b z, Accepted alpha t a b z → DSep D a b (fun w => w ∈ z) := by
    rintro t ht a b z ⟨p, h1, h2⟩
    exact (hp _ (ht _ h2)).1 h1
  have keep : ∀ {t : List (Asked α P)}, (∀ q ∈ t, q ∈ tr) → ∀ a b, Adj D a b → KeepOf N (Accepted alpha t) a b := by
    intro t ht a b hab
    have hne : a ≠ b := by rintro rfl; rcases hab with h | h <;> exact ac.irrefl _ h
    have hm : a ∈ N ∧ b ∈ N := by
      rcases hab with h | h
      · exact hD _ _ h
      · exact (hD _ _ h).symm
    exact ⟨hm.1, hm.2, hne, fun z => ⟨fun h => not_dsep_of_adj hne hab (hacc ht _ _ _ h),
      fun h => not_dsep_of_adj hne.symm hab.symm (hacc ht _ _ _ h)⟩⟩
  constructor
  · intro hk
    by_contra hna
    -- the parents of one endpoint separate
    have main : ∀ x y, x ∈ N → y ∈ N → x ≠ y → ¬ Adj D x y → ¬ Desc D y x → KeepOf N (Accepted alpha tr) y x → False := by
      intro x y hx hy hxy hna hnd hk
      have hsep := dsep_parents ac hxy hna hnd
      let z := N.filter (fun w => decide (D w y))
      have hz : ∀ w, w ∈ z ↔ D w y := by
        intro w
        simp only [z, List.mem_filter, decide_eq_true_eq]
        exact ⟨fun h => h.2, fun h => ⟨(hD _ _ h).1, h⟩⟩
      have hznd : z.Nodup := hN.filter _
      have hxz : x ∉ z := fun h => hna (Or.inl ((hz x).1 h))
      have hyz : y ∉ z := fun h => ac.irrefl y ((hz y).1 h)
      have hlen : z.length < N.length - 1 := by
        have h1 : (x :: y :: z).Nodup := by simp [hxy, hxz, hyz, hznd]
        have h2 : (x :: y :: z).Subperm N := h1.subperm (by
          intro w hw
          simp only [List.mem_cons] at hw
          rcases hw with rfl | rfl | hw
          · exact hx
          · exact hy
          · exact (hD _ _ ((hz w).1 hw)).1)
        have := h2.length_le
        simp at this
        omega
      obtain ⟨trk, lev, rest, rfl, hlk, hask⟩ := levels_split hl hlen
      have hsub : ∀ q ∈ trk, q ∈ trk ++ lev ++ rest := by intro q hq; simp [hq]
      have hkk : KeepOf N (Accepted alpha trk) y x := by
        refine ⟨hk.1, hk.2.1, hk.2.2.1, fun w => ⟨fun h => (hk.2.2.2 w).1 ?_, fun h => (hk.2.2.2 w).2 ?_⟩⟩
        · rw [accepted_append, accepted_append]; exact Or.inl (Or.inl h)
        · rw [accepted_append, accepted_append]; exact Or.inl (Or.inl h)
      obtain ⟨q, hq, rfl, rfl, hperm⟩ := hask.2 y x z hkk hznd rfl (fun w hw =>
        ⟨keep hsub y w (Or.inr ((hz w).1 hw)), fun h => hxz (h ▸ hw)⟩)
      have hq' : q ∈ trk ++ lev ++ rest := by simp [hq]
      have hds : DSep D q.u q.v (fun w => w ∈ q.z) := by
        refine (dsep_congr (fun w => ?_) _ _).1 hsep.symm
        rw [hperm.mem_iff]; exact (hz w).symm
      exact (hk.2.2.2 q.z).1 ⟨q.p, (hp q hq').2 hds, hq'⟩
    have hks : KeepOf N (Accepted alpha tr) v u := ⟨hk.2.1, hk.1, hk.2.2.1.symm, fun z => (hk.2.2.2 z).symm⟩
    by_cases hd : Desc D v u
    · refine main v u hk.2.1 hk.1 hk.2.2.1.symm (fun h => hna h.symm) (fun hd' => ?_) hk
      rcases Relation.reflTransGen_iff_eq_or_transGen.1 hd with h | h
      · exact hk.2.2.1 h
      · exact ac _ (h.trans_left hd')
    · exact main u v hk.1 hk.2.1 hk.2.2.1 hna hd hks
  · exact keep (fun _ h => h) u v

end Graph
end Cdmir
