import Verif.Model.GES
import Verif.Lemmas.Pdag2dag
import Mathlib.Data.List.Chain
import Mathlib.Data.List.Range

/-! The small tests of GES: subsets, cliques, semi-directed paths. -/

namespace Cdmir
namespace GES
open Graph Spec
variable {α : Type} [DecidableEq α] {g : Graph α}

/-! ### subsets -/

omit [DecidableEq α] in
theorem mem_combinatorial {l s : List α} : s ∈ combinatorial l ↔ s.Sublist l := by
  unfold combinatorial
  split_ifs with h0 h1
  · rw [List.length_eq_zero_iff] at h0
    subst h0
    simp
  · obtain ⟨x, rfl⟩ := List.length_eq_one_iff.1 h1
    simp only [List.mem_cons, List.not_mem_nil, or_false]
    constructor
    · rintro (rfl | rfl)
      · exact List.nil_sublist _
      · exact List.Sublist.refl _
    · intro h
      cases h with
      | cons _ h => left; exact List.sublist_nil.1 h
      | cons_cons _ h => right; rw [List.sublist_nil.1 h]
  · simp only [List.mem_flatMap, List.mem_range, mem_combinations_iff]
    constructor
    · rintro ⟨n, _, h, _⟩; exact h
    · intro h; exact ⟨s.length, by have := h.length_le; omega, h, rfl⟩

omit [DecidableEq α] in
theorem combinations_nodup {l : List α} (hl : l.Nodup) (k : Nat) : (combinations l k).Nodup := by
  induction l generalizing k with
  | nil => cases k <;> simp [combinations]
  | cons x t ih =>
    cases k with
    | zero => simp [combinations]
    | succ k =>
      rw [List.nodup_cons] at hl
      unfold combinations
      rw [List.nodup_append]
      refine ⟨(ih hl.2 k).map (fun a b h => (List.cons.inj h).2), ih hl.2 (k + 1), ?_⟩
      intro a ha b hb hab
      subst hab
      rw [List.mem_map] at ha
      obtain ⟨c, _, rfl⟩ := ha
      have := (mem_combinations_iff.1 hb).1.subset (List.mem_cons_self ..)
      exact hl.1 this

omit [DecidableEq α] in
theorem combinatorial_nodup {l : List α} (hl : l.Nodup) : (combinatorial l).Nodup := by
  unfold combinatorial
  split_ifs with h0 h1
  · simp
  · obtain ⟨x, rfl⟩ := List.length_eq_one_iff.1 h1
    simp
  · rw [List.nodup_flatMap]
    refine ⟨fun n _ => combinations_nodup hl n, ?_⟩
    refine List.Pairwise.imp ?_ (List.nodup_range (n := l.length + 1))
    intro a b hab c hc hc'
    exact hab ((mem_combinations_iff.1 hc).2.symm.trans (mem_combinations_iff.1 hc').2)

omit [DecidableEq α] in
theorem combinatorial_sorted (l : List α) : (combinatorial l).Pairwise (fun s t => s.length ≤ t.length) := by
  unfold combinatorial
  split_ifs with h0 h1
  · simp
  · simp
  · rw [List.pairwise_flatMap]
    refine ⟨fun n _ => ?_, ?_⟩
    · refine List.pairwise_of_forall_mem_list ?_
      intro a ha b hb
      rw [(mem_combinations_iff.1 ha).2, (mem_combinations_iff.1 hb).2]
    · refine List.Pairwise.imp ?_ (List.pairwise_lt_range (n := l.length + 1))
      intro a b hab x hx y hy
      rw [(mem_combinations_iff.1 hx).2, (mem_combinations_iff.1 hy).2]
      omega

/-! ### supersets -/

theorem findSubsetInclude_eq (s0 : List α) (sub : List (List α)) :
    findSubsetInclude s0 sub = sub.map (fun s => decide (∀ x ∈ s0, x ∈ s)) := by
  unfold findSubsetInclude
  split_ifs with h
  · rcases h with h | h
    · rw [List.length_eq_zero_iff] at h
      subst h
      simp
    · rw [List.length_eq_zero_iff] at h
      subst h
      simp
  · refine List.map_congr_left (fun s _ => ?_)
    simp only
    push Not at h
    by_cases hs : ∀ x ∈ s0, x ∈ s
    · have e : (pySet s0).filter (fun x => x ∈ pySet s) = pySet s0 := by
        rw [List.filter_eq_self]
        intro x hx
        simp only [mem_pySet, decide_eq_true_eq] at hx ⊢
        exact hs x hx
      rw [e, if_pos ?_]
      · simpa using hs
      · obtain ⟨y, hy⟩ := List.exists_mem_of_length_pos (Nat.pos_of_ne_zero h.1)
        exact (List.length_pos_of_mem ((mem_pySet _ _).2 hy)).ne'
    · rw [decide_eq_false hs]
      split_ifs with h2
      · rw [decide_eq_false]
        rintro ⟨h3, _⟩
        apply hs
        intro x hx
        have := h3 x ((mem_pySet _ _).2 hx)
        simp only [List.mem_filter, mem_pySet, decide_eq_true_eq] at this
        exact this.2
      · simp

/-! ### cliques -/

/-- Value of a stored mark as in `Gs`: proof device. -/
def markVal : Option Mark → Int
  | some m => m.toInt
  | none => 0

theorem markMatrix_fold (a b : α) (es : List (Edge α)) (m : α → α → Int)
    (he : ∀ e ∈ es, e.u ≠ e.v ∧ g.mark e.v e.u = some e.mu ∧ g.mark e.u e.v = some e.mv) :
    es.foldl (fun m e => fun a b =>
      if a = e.v ∧ b = e.u then e.mv.toInt else if a = e.u ∧ b = e.v then e.mu.toInt else m a b) m a b =
    if ∃ e ∈ es, (a = e.v ∧ b = e.u) ∨ (a = e.u ∧ b = e.v) then markVal (g.mark b a) else m a b := by
  induction es generalizing m with
  | nil => simp
  | cons e t ih =>
    rw [List.foldl_cons, ih _ (fun e' h' => he e' (by simp [h']))]
    obtain ⟨h0, h1, h2⟩ := he e (by simp)
    by_cases hc : ∃ e ∈ t, (a = e.v ∧ b = e.u) ∨ (a = e.u ∧ b = e.v)
    · rw [if_pos hc, if_pos]
      obtain ⟨e', h', h''⟩ := hc
      exact ⟨e', by simp [h'], h''⟩
    · rw [if_neg hc]
      simp only [List.mem_cons, exists_eq_or_imp, hc, or_false]
      by_cases c1 : a = e.v ∧ b = e.u
      · obtain ⟨rfl, rfl⟩ := c1
        simp [h2, markVal]
      · rw [if_neg c1]
        by_cases c2 : a = e.u ∧ b = e.v
        · obtain ⟨rfl, rfl⟩ := c2
          simp [h1, markVal]
        · simp [c1, c2]

theorem markMatrix_eq (hw : g.WF) (hl : g.NoLoop) (a b : α) : markMatrix g.edgeList a b = markVal (g.mark b a) := by
  unfold markMatrix
  rw [markMatrix_fold (g := g)]
  · split_ifs with h
    · rfl
    · cases hm : g.mark b a with
      | none => rfl
      | some m =>
        exfalso
        have hne : a ≠ b := by rintro rfl; rw [hl] at hm; cases hm
        have hm' : (g.mark b a).isSome := by rw [hm]; rfl
        have ha := hw.mark_right hm'
        have hb := hw.mark_left hm'
        have hba := hw.symm _ _ hm'
        obtain ⟨m', hm2⟩ := Option.isSome_iff_exists.1 hba
        rcases Nat.lt_trichotomy (g.nodeList.idxOf a) (g.nodeList.idxOf b) with h1 | h1 | h1
        · exact h ⟨⟨a, b, m, m'⟩, (mem_edgeList hw _).2 ⟨ha, hb, h1, hm, hm2⟩, Or.inr ⟨rfl, rfl⟩⟩
        · exact hne ((List.idxOf_inj ha).1 h1)
        · exact h ⟨⟨b, a, m', m⟩, (mem_edgeList hw _).2 ⟨hb, ha, h1, hm2, hm⟩, Or.inl ⟨rfl, rfl⟩⟩
  · intro e he
    rw [mem_edgeList hw] at he
    exact ⟨fun k => by rw [k] at he; omega, he.2.2.2⟩

open Classical in
theorem checkClique_ok (h : ReachableSimple .pdag g) {l : List α} (hl : l.Nodup) :
    checkClique g l = .ok (decide (∀ a ∈ l, ∀ b ∈ l, a ≠ b → Conn g a b)) := by
  have hg := h.toReachable.good'
  have hw := hg.1.wf
  unfold checkClique
  rw [edges_ok hw]
  simp only [bind, Except.bind, pure, Except.pure]
  have key : ∀ a b, (if markMatrix g.edgeList a b = 1 ∨ markMatrix g.edgeList b a = 1 then -1 else markMatrix g.edgeList a b) =
      if Conn g a b then -1 else 0 := by
    intro a b
    rw [markMatrix_eq hw h.noLoop, markMatrix_eq hw h.noLoop]
    by_cases hc : Conn g a b
    · rw [if_pos hc]
      have hm := (conn_iff hw _ _).1 hc
      obtain ⟨m, hm1⟩ := Option.isSome_iff_exists.1 hm
      obtain ⟨m', hm2⟩ := Option.isSome_iff_exists.1 (hw.symm _ _ hm)
      have k := hg.1.kindOK
      unfold Graph.KindOK at k
      rw [hg.2] at k
      have k1 := k a b m hm1
      have k2 := k b a m' hm2
      rw [hm1, hm2]
      rcases k1 with rfl | rfl <;> rcases k2 with rfl | rfl <;> simp [markVal, Mark.toInt]
    · rw [if_neg hc]
      rw [conn_iff hw, Bool.not_eq_true, Option.isSome_eq_false_iff, Option.isNone_iff_eq_none] at hc
      have hc' : g.mark b a = none := by
        rw [← Option.isNone_iff_eq_none, ← Option.isSome_eq_false_iff, hw.symm_iff, hc]; rfl
      rw [hc, hc']
      simp [markVal]
  split_ifs with h0
  · rw [List.length_eq_zero_iff] at h0
    subst h0
    simp
  · congr 1
    rw [Bool.eq_iff_iff, decide_eq_true_eq]
    simp only [List.all_eq_true, key, Prod.forall, decide_eq_true_eq]
    have hz : ∀ a i, (a, i) ∈ l.zipIdx ↔ l[i]? = some a := fun a i => List.mk_mem_zipIdx_iff_getElem?
    constructor
    · intro k a ha b hb hab
      obtain ⟨i, hi⟩ := List.mem_iff_getElem?.1 ha
      obtain ⟨j, hj⟩ := List.mem_iff_getElem?.1 hb
      have := k a i ((hz a i).2 hi) b j ((hz b j).2 hj)
      have hij : i ≠ j := by rintro rfl; rw [hi] at hj; exact hab (Option.some.inj hj)
      rw [if_neg hij] at this
      by_contra hc
      rw [if_neg hc] at this
      omega
    · intro k a i hi b j hj
      rw [hz] at hi hj
      by_cases hij : i = j
      · subst hij
        rw [hi] at hj
        cases hj
        rw [if_pos rfl, if_neg]
        intro hc
        rw [conn_iff hw, h.noLoop] at hc
        simp at hc
      · rw [if_neg hij, if_pos]
        refine k a (List.mem_of_getElem? hi) b (List.mem_of_getElem? hj) ?_
        rintro rfl
        obtain ⟨h1, e1⟩ := List.getElem?_eq_some_iff.1 hi
        obtain ⟨h2, e2⟩ := List.getElem?_eq_some_iff.1 hj
        exact hij ((List.Nodup.getElem_inj_iff hl).1 (e1.trans e2.symm))

/-! ### semi-directed paths -/

/-- One step along an undirected or forward-directed edge. -/
def Semi (g : Graph α) (a b : α) : Prop := Dir g a b ∨ Und g a b

theorem Semi.conn (h : DU g) {a b : α} (k : Semi g a b) : Conn g a b :=
  k.elim (fun k => Dir.conn h.wf k) (fun k => Und.conn h.wf k)

theorem semiChildren_ok (h : DU g) {x : α} (hx : x ∈ g.nodeList) :
    ∃ l, semiChildren g x = .ok l ∧ (∀ y, y ∈ l ↔ Semi g x y) ∧ l.length ≤ 2 * g.nodeList.length := by
  classical
  unfold semiChildren
  rw [tailBoth_ok h hx]
  have e1 : filterE (fun p => g.isArrow x p) g.nodes = .ok (g.nodeList.filter (fun p => Dir g x p)) :=
    filterE_ok _ _ _ (fun p hp => h.isArrow hx hp)
  rw [e1]
  refine ⟨_, rfl, ?_, ?_⟩
  · intro y
    simp only [List.mem_append, List.mem_filter, decide_eq_true_eq]
    constructor
    · rintro (k | k)
      · exact Or.inl k.2
      · exact Or.inr (Und.symm h.wf k.2)
    · rintro (k | k)
      · exact Or.inl ⟨(Conn.mem h.wf (Dir.conn h.wf k)).2, k⟩
      · exact Or.inr ⟨(Conn.mem h.wf (Und.conn h.wf k)).2, Und.symm h.wf k⟩
  · rw [List.length_append]
    have h1 := List.length_filter_le (fun p => decide (Dir g x p)) g.nodeList
    have h2 := List.length_filter_le (fun y => decide (Und g y x)) g.nodeList
    omega

/-- The path under a stack entry can be completed to the target without a node of `nat` before it: proof device. -/
def Bad (g : Graph α) (target : α) (nat : List α) (x : α) (anc : List α) : Prop :=
  ∃ q, q.head? = some x ∧ q.getLast? = some target ∧ q.IsChain (Semi g) ∧ (anc.reverse ++ q).Nodup ∧
    ∀ y ∈ anc.reverse ++ q, y ≠ target → y ∉ nat

theorem bad_target {t : α} {nat anc : List α} (hn : (t :: anc).Nodup) : Bad g t nat t anc ↔ ∀ y ∈ anc, y ∉ nat := by
  constructor
  · rintro ⟨q, _, _, _, _, h⟩ y hy
    refine h y (by simp [hy]) ?_
    rintro rfl
    exact (List.nodup_cons.1 hn).1 hy
  · intro h
    refine ⟨[t], rfl, rfl, by simp, ?_, ?_⟩
    · rw [List.nodup_append]
      rw [List.nodup_cons] at hn
      refine ⟨List.nodup_reverse.2 hn.2, by simp, ?_⟩
      intro a ha b hb hab
      simp only [List.mem_singleton] at hb
      subst hab hb
      exact hn.1 (List.mem_reverse.1 ha)
    · intro y hy hyt
      simp only [List.mem_append, List.mem_reverse, List.mem_singleton] at hy
      exact h y (hy.resolve_right hyt)

theorem bad_step {t x : α} {nat anc : List α} (hx : x ≠ t) :
    Bad g t nat x anc ↔ ∃ c, Semi g x c ∧ c ∉ anc ∧ Bad g t nat c (x :: anc) := by
  constructor
  · rintro ⟨q, h1, h2, h3, h4, h5⟩
    cases q with
    | nil => simp at h1
    | cons a q =>
      simp only [List.head?_cons, Option.some.injEq] at h1
      subst h1
      cases q with
      | nil => simp only [List.getLast?_singleton, Option.some.injEq] at h2; exact absurd h2 hx
      | cons b q =>
        rw [List.isChain_cons_cons] at h3
        have e : (a :: anc).reverse ++ (b :: q) = anc.reverse ++ (a :: b :: q) := by simp
        refine ⟨b, h3.1, ?_, b :: q, rfl, ?_, h3.2, by rw [e]; exact h4, by rw [e]; exact h5⟩
        · intro hb
          rw [List.nodup_append] at h4
          exact h4.2.2 b (List.mem_reverse.2 hb) b (by simp) rfl
        · rw [List.getLast?_cons_cons] at h2; exact h2
  · rintro ⟨c, hc, _, q, h1, h2, h3, h4, h5⟩
    have e : (x :: anc).reverse ++ q = anc.reverse ++ (x :: q) := by simp
    rw [e] at h4 h5
    refine ⟨x :: q, rfl, ?_, ?_, h4, h5⟩
    · cases q with
      | nil => simp at h1
      | cons b q => rw [List.getLast?_cons_cons]; exact h2
    · cases q with
      | nil => simp at h1
      | cons b q =>
        simp only [List.head?_cons, Option.some.injEq] at h1
        subst h1
        exact List.isChain_cons_cons.2 ⟨hc, h3⟩

/-- Steps needed for a stack entry: proof device. -/
def costBound (m : Nat) : Nat → Nat
  | 0 => 1
  | d + 1 => 1 + 2 * m * costBound m d

/-- What working through a piece `L` of the stack comes to: proof device. -/
def Runs (g : Graph α) (t : α) (nat : List α) (bad : Prop) (B : Nat) (L : List (α × List α)) : Prop :=
  ∃ c, c ≤ B ∧ ((bad ∧ ∀ n st, vC2Loop g t nat (n + c) (L ++ st) = .ok false) ∨
    (¬ bad ∧ ∀ n st, vC2Loop g t nat (n + c) (L ++ st) = vC2Loop g t nat n st))

theorem Runs.list {t : α} {nat : List α} {B : Nat} {bad : α × List α → Prop} (L : List (α × List α))
    (h : ∀ e ∈ L, Runs g t nat (bad e) B [e]) : Runs g t nat (∃ e ∈ L, bad e) (L.length * B) L := by
  induction L with
  | nil => exact ⟨0, by simp, Or.inr ⟨by simp, fun n st => rfl⟩⟩
  | cons e T ih =>
    obtain ⟨c1, b1, h1⟩ := h e (by simp)
    obtain ⟨c2, b2, h2⟩ := ih (fun e' h' => h e' (by simp [h']))
    refine ⟨c2 + c1, ?_, ?_⟩
    · rw [List.length_cons, Nat.add_mul]; omega
    · simp only [List.mem_cons, exists_eq_or_imp]
      rcases h1 with ⟨k1, h1⟩ | ⟨k1, h1⟩
      · left
        refine ⟨Or.inl k1, fun n st => ?_⟩
        rw [← Nat.add_assoc]
        exact h1 (n + c2) (T ++ st)
      · rcases h2 with ⟨k2, h2⟩ | ⟨k2, h2⟩
        · left
          refine ⟨Or.inr k2, fun n st => ?_⟩
          rw [← Nat.add_assoc, ← h2 n st]
          exact h1 (n + c2) (T ++ st)
        · right
          refine ⟨fun k => k.elim k1 k2, fun n st => ?_⟩
          rw [← Nat.add_assoc, ← h2 n st]
          exact h1 (n + c2) (T ++ st)

theorem Runs.mono {t : α} {nat : List α} {B B' : Nat} {bad bad' : Prop} {L : List (α × List α)} (h : Runs g t nat bad B L)
    (hb : bad ↔ bad') (hB : B ≤ B') : Runs g t nat bad' B' L := by
  obtain ⟨c, hc, k⟩ := h
  exact ⟨c, hc.trans hB, by rw [← hb]; exact k⟩

omit [DecidableEq α] in
theorem foldl_push (x : α) (anc : List α) (l : List α) (st : List (α × List α)) :
    l.foldl (fun st c => (c, x :: anc) :: st) st = (l.reverse.map (fun c => (c, x :: anc))) ++ st := by
  induction l generalizing st with
  | nil => rfl
  | cons a t ih => rw [List.foldl_cons, ih]; simp

theorem costBound_pos (m d : Nat) : 1 ≤ costBound m d := by
  cases d <;> simp [costBound]

theorem runs_entry (h : DU g) (t : α) (nat : List α) : ∀ (d : Nat) (x : α) (anc : List α), (x :: anc).Nodup →
    (∀ y ∈ x :: anc, y ∈ g.nodeList) → g.nodeList.length ≤ (x :: anc).length + d →
    Runs g t nat (Bad g t nat x anc) (costBound g.nodeList.length d) [(x, anc)] := by
  intro d
  induction d with
  | zero =>
    intro x anc hn hm hd
    by_cases hx : x = t
    · subst hx
      refine ⟨1, by simp [costBound], ?_⟩
      rw [bad_target hn]
      by_cases hb : ∀ y ∈ anc, y ∉ nat
      · left; refine ⟨hb, fun n st => ?_⟩
        simp only [List.singleton_append, vC2Loop, if_true]
        rw [if_neg (by simpa using hb)]; rfl
      · right; refine ⟨hb, fun n st => ?_⟩
        simp only [List.singleton_append, vC2Loop, if_true]
        rw [if_pos (by push Not at hb; simpa using hb)]
    · obtain ⟨l, el, hl, _⟩ := semiChildren_ok h (hm x (by simp))
      have hnil : l.filter (fun c => c ∉ anc) = [] := by
        rw [List.filter_eq_nil_iff]
        intro c hc hca
        simp only [decide_eq_true_eq] at hca
        have hsc := (hl c).1 hc
        have hcx : c ≠ x := fun e => h.ne (hsc.conn h) e.symm
        have hcm := (Conn.mem h.wf (hsc.conn h)).2
        have hnd : (c :: x :: anc).Nodup := List.nodup_cons.2 ⟨by simp [hcx, hca], hn⟩
        have := (List.subperm_of_subset hnd (fun y hy => by
          rcases List.mem_cons.1 hy with rfl | hy
          · exact hcm
          · exact hm y hy)).length_le
        simp only [List.length_cons] at this hd
        omega
      refine ⟨1, by simp [costBound], Or.inr ⟨?_, fun n st => ?_⟩⟩
      · rw [bad_step hx]
        rintro ⟨c, hc, hca, _⟩
        have : c ∈ l.filter (fun c => c ∉ anc) := by simp [(hl c).2 hc, hca]
        rw [hnil] at this
        simp at this
      · simp only [List.singleton_append, vC2Loop, if_neg hx, el, bind, Except.bind, hnil, List.foldl_nil]
  | succ d ih =>
    intro x anc hn hm hd
    by_cases hx : x = t
    · subst hx
      refine ⟨1, costBound_pos _ _, ?_⟩
      rw [bad_target hn]
      by_cases hb : ∀ y ∈ anc, y ∉ nat
      · left; refine ⟨hb, fun n st => ?_⟩
        simp only [List.singleton_append, vC2Loop, if_true]
        rw [if_neg (by simpa using hb)]; rfl
      · right; refine ⟨hb, fun n st => ?_⟩
        simp only [List.singleton_append, vC2Loop, if_true]
        rw [if_pos (by push Not at hb; simpa using hb)]
    · obtain ⟨l, el, hl, hlen⟩ := semiChildren_ok h (hm x (by simp))
      have hr := Runs.list (g := g) (t := t) (nat := nat) (B := costBound g.nodeList.length d)
        (bad := fun e => Bad g t nat e.1 e.2) ((l.filter (fun c => c ∉ anc)).reverse.map (fun c => (c, x :: anc))) (by
          intro e he
          simp only [List.mem_map, List.mem_reverse, List.mem_filter, decide_eq_true_eq] at he
          obtain ⟨c, ⟨hc, hca⟩, rfl⟩ := he
          have hsc := (hl c).1 hc
          have hcx : c ≠ x := fun e => h.ne (hsc.conn h) e.symm
          have hcm := (Conn.mem h.wf (hsc.conn h)).2
          refine ih c (x :: anc) (List.nodup_cons.2 ⟨by simp [hcx, hca], hn⟩) ?_ ?_
          · intro y hy
            rcases List.mem_cons.1 hy with rfl | hy
            · exact hcm
            · exact hm y hy
          · simp only [List.length_cons] at hd ⊢; omega)
      obtain ⟨c, hc, k⟩ := hr
      have hbad : (∃ e ∈ (l.filter (fun c => c ∉ anc)).reverse.map (fun c => (c, x :: anc)), Bad g t nat e.1 e.2) ↔
          Bad g t nat x anc := by
        rw [bad_step hx]
        simp only [List.mem_map, List.mem_reverse, List.mem_filter, decide_eq_true_eq]
        constructor
        · rintro ⟨e, ⟨c, ⟨h1, h2⟩, rfl⟩, h3⟩; exact ⟨c, (hl c).1 h1, h2, h3⟩
        · rintro ⟨c, h1, h2, h3⟩; exact ⟨_, ⟨c, ⟨(hl c).2 h1, h2⟩, rfl⟩, h3⟩
      rw [hbad] at k
      refine ⟨c + 1, ?_, ?_⟩
      · have hl2 : (l.filter (fun c => c ∉ anc)).length ≤ 2 * g.nodeList.length := (List.length_filter_le _ _).trans hlen
        have := Nat.mul_le_mul_right (costBound g.nodeList.length d) hl2
        simp only [List.length_map, List.length_reverse] at hc
        simp only [costBound]
        omega
      · have step : ∀ n st, vC2Loop g t nat (n + (c + 1)) ([(x, anc)] ++ st) =
            vC2Loop g t nat (n + c) ((l.filter (fun c => c ∉ anc)).reverse.map (fun c => (c, x :: anc)) ++ st) := by
          intro n st
          rw [← Nat.add_assoc]
          simp only [List.singleton_append, vC2Loop, if_neg hx, el, bind, Except.bind, foldl_push]
        rcases k with ⟨k1, k2⟩ | ⟨k1, k2⟩
        · exact Or.inl ⟨k1, fun n st => (step n st).trans (k2 n st)⟩
        · exact Or.inr ⟨k1, fun n st => (step n st).trans (k2 n st)⟩

/-- Enough steps for `Insert_vC2_new` on a graph with `m` nodes: proof device. -/
def vC2Bound (m : Nat) : Nat := costBound m m

open Classical in
theorem insertVC2_ok (h : DU g) {j i : α} (hj : j ∈ g.nodeList) (nat : List α) {n : Nat} (hn : vC2Bound g.nodeList.length ≤ n) :
    insertVC2 n g j i nat = .ok (decide (¬ Bad g i nat j [])) := by
  obtain ⟨c, hc, k⟩ := runs_entry h i nat g.nodeList.length j [] (by simp) (by simpa using hj) (by simp)
  unfold insertVC2
  have e : n = (n - c) + c := by unfold vC2Bound at hn; omega
  rcases k with ⟨k1, k2⟩ | ⟨k1, k2⟩
  · have := k2 (n - c) []
    rw [← e] at this
    simpa [k1] using this
  · have := k2 (n - c) []
    rw [← e] at this
    simp only [List.append_nil] at this
    rw [this]
    simp [k1, vC2Loop, pure, Except.pure]

end GES
end Cdmir
