import Verif.Lemmas.HierFind
import Verif.Props.Tetrad
import Mathlib.Data.List.Sublists

/-! C91-C93: what `FindCausalCluster` returns. -/

set_option linter.unusedSectionVars false

namespace Cdmir.Hier
open Cdmir.Tetrad (allE anyE)

variable {V Col : Type} [LinearOrder V]

/-- The tests that make `S` a causal cluster: at least two columns lie outside, and the tetrad of any two variables of `S` against any two outside
vanishes, in the order in which the code reads them. -/
def Passes (env : Env V Col) (d : Frame V Col) (S : List V) : Prop :=
  2 ≤ ((dkeys d).filter fun v => v ∉ S).length ∧
    ∀ i j, [i, j].Sublist S → ∀ k l, [k, l].Sublist (env.order ((dkeys d).filter fun v => v ∉ S)) → vanE env d i j k l = .ok true

theorem allE_true {β : Type} {f : β → Except Err Bool} {l : List β} : allE f l = .ok true ↔ ∀ x ∈ l, f x = .ok true := by
  induction l with
  | nil => simp [allE, pure, Except.pure]
  | cons a l ih =>
    unfold allE
    constructor
    · intro h
      obtain ⟨b, hb, h⟩ := bind_ok h
      cases b with
      | true =>
        rw [if_pos rfl, ih] at h
        exact List.forall_mem_cons.2 ⟨hb, h⟩
      | false => cases h
    · intro h
      rw [List.forall_mem_cons, ← ih] at h
      rw [h.1]
      exact h.2

theorem anyE_false {β : Type} {f : β → Except Err Bool} {l : List β} : anyE f l = .ok false ↔ ∀ x ∈ l, f x = .ok false := by
  induction l with
  | nil => simp [anyE, pure, Except.pure]
  | cons a l ih =>
    unfold anyE
    constructor
    · intro h
      obtain ⟨b, hb, h⟩ := bind_ok h
      cases b with
      | true => cases h
      | false =>
        rw [if_neg (by simp), ih] at h
        exact List.forall_mem_cons.2 ⟨hb, h⟩
    · intro h
      rw [List.forall_mem_cons, ← ih] at h
      rw [h.1]
      exact h.2

theorem pairs_sublist {l : List V} {x y : V} : (x, y) ∈ pairs l ↔ [x, y].Sublist l := by
  induction l with
  | nil => simp [pairs]
  | cons a l ih =>
    rw [pairs, List.mem_append, List.mem_map, ih]
    constructor
    · rintro (⟨b, hb, h⟩ | h)
      · cases h
        exact (List.singleton_sublist.2 hb).cons_cons _
      · exact h.cons a
    · intro h
      cases h with
      | cons _ h => exact Or.inr h
      | cons_cons _ h => exact Or.inl ⟨y, List.singleton_sublist.1 h, rfl⟩

theorem check_iff {env : Env V Col} (ho : ∀ l, (env.order l).Perm l) {d : Frame V Col} {S : List V} : check env d S = .ok true ↔ Passes env d S := by
  unfold check Tetrad.checkCausalCluster Passes
  simp only [(ho _).length_eq]
  split
  · rename_i h
    constructor
    · intro h'
      cases h'
    · rintro ⟨h', _⟩
      omega
  · rename_i h
    rw [allE_true]
    constructor
    · intro h'
      refine ⟨by omega, fun i j hij k l hkl => ?_⟩
      exact allE_true.1 (h' (i, j) (pairs_sublist.2 hij)) (k, l) (pairs_sublist.2 hkl)
    · rintro ⟨_, h'⟩ ⟨i, j⟩ hij
      exact allE_true.2 fun ⟨k, l⟩ hkl => h' i j (pairs_sublist.1 hij) k l (pairs_sublist.1 hkl)

/-- The parts of a run of `findCausalCluster`. -/
theorem find_parts {env : Env V Col} (ho : ∀ l, (env.order l).Perm l) {d : Frame V Col} (hd : (dkeys d).Nodup)
    {p i : List (List V)} {f : Found V} (h : findCausalCluster env d p i = .ok f) :
    ∃ ps merged B np ni big, pairPass env d (combinations (dkeys d) 2) = .ok ps ∧ Merge.mergeList env.idxOrder ps = .ok merged ∧
      record env d merged (p, i) = .ok (p ++ np, i ++ ni) ∧ sizeLoop env d (dkeys d).length 3 [] B = .ok big ∧ B.Nodup ∧
      (∀ v, v ∈ B ↔ v ∈ dkeys d ∧ v ∉ ps.flatten) ∧ (ps = [] → B = dkeys d) ∧ (np ++ ni).Perm merged ∧
      (∀ S ∈ np, S.length ≤ 2 → judge env d S = .ok true) ∧ (∀ S ∈ ni, S.length ≤ 2 ∧ judge env d S = .ok false) ∧
      f = ⟨merged ++ big, p ++ np, i ++ ni ++ big⟩ := by
  unfold findCausalCluster at h
  obtain ⟨ps, hps, h⟩ := bind_ok h
  obtain ⟨merged, hm, h⟩ := bind_ok h
  obtain ⟨⟨p', i'⟩, hr, h⟩ := bind_ok h
  obtain ⟨big, hb, h⟩ := bind_ok h
  cases h
  obtain ⟨np, ni, h1, h2, h3, h4⟩ := record_spec hr
  cases h1
  refine ⟨ps, merged, _, np, ni, big, hps, hm, hr, hb, ?_, ?_, ?_, h2, h3, h4, rfl⟩
  · split
    · exact hd
    · exact (ho _).nodup_iff.2 (hd.filter _)
  · intro v
    split
    · rename_i h0
      rw [List.isEmpty_iff] at h0
      subst h0
      simp
    · rw [(ho _).mem_iff, List.mem_filter]
      simp only [decide_eq_true_eq]
  · rintro rfl
    rfl

/-- The pairs kept by the first stage. -/
theorem pair_mem {env : Env V Col} (ho : ∀ l, (env.order l).Perm l) {d : Frame V Col} {ps : List (List V)}
    (h : pairPass env d (combinations (dkeys d) 2) = .ok ps) (S : List V) :
    S ∈ ps ↔ ∃ x y, S = [x, y] ∧ [x, y].Sublist (dkeys d) ∧ Passes env d [x, y] := by
  rw [(pairPass_spec h).2, check_iff ho, mem_combinations_iff]
  constructor
  · rintro ⟨⟨h1, h2⟩, h3⟩
    obtain ⟨x, y, rfl⟩ := List.length_eq_two.1 h2
    exact ⟨x, y, rfl, h1, h3⟩
  · rintro ⟨x, y, rfl, h1, h2⟩
    exact ⟨⟨h1, rfl⟩, h2⟩

/-- A link: the pair passed, in the order of the columns. -/
def Link (env : Env V Col) (d : Frame V Col) (x y : V) : Prop :=
  ([x, y].Sublist (dkeys d) ∧ Passes env d [x, y]) ∨ ([y, x].Sublist (dkeys d) ∧ Passes env d [y, x])

/-- C91. Every cluster learned has at least two variables, all of them columns, none twice; it passes the tests itself, or its variables are joined by
pairs that pass. Any pair that passes lies in one cluster. Every cluster learned is recorded once, as pure or as impure, after those recorded before;
a pair is recorded as impure only if no reading of `JudgePureCluster` makes it pure. -/
theorem c91_found {env : Env V Col} (ho : ∀ l, (env.order l).Perm l) (hi : ∀ l, (env.idxOrder l).Perm l) {d : Frame V Col} (hd : (dkeys d).Nodup)
    {p i : List (List V)} {f : Found V} (h : findCausalCluster env d p i = .ok f) :
    (∀ S ∈ f.learned, S.Nodup ∧ 2 ≤ S.length ∧ (∀ v ∈ S, v ∈ dkeys d) ∧
      (Passes env d S ∨ ∀ x ∈ S, ∀ y ∈ S, Relation.TransGen (Link env d) x y)) ∧
    (∀ x y, [x, y].Sublist (dkeys d) → Passes env d [x, y] → ∃ S ∈ f.learned, x ∈ S ∧ y ∈ S) ∧
    ∃ np ni, f.pures = p ++ np ∧ f.impures = i ++ ni ∧ (np ++ ni).Perm f.learned ∧
      ∀ x y, [x, y] ∈ ni → ∀ k l, [k, l].Sublist (env.order ((dkeys d).filter fun v => v ∉ [x, y])) → vanE env d x k y l = .ok false := by
  obtain ⟨ps, merged, B, np, ni, big, h1, h2, h3, h4, h5, h6, -, h7, h8, h9, rfl⟩ := find_parts ho hd h
  have hps := pair_mem ho h1
  have htwo : ∀ c ∈ ps, c.Nodup ∧ c.length = 2 := by
    intro c hc
    obtain ⟨x, y, rfl, hs, -⟩ := (hps c).1 hc
    exact ⟨hd.sublist hs, rfl⟩
  obtain ⟨m1, m2, m3, m4⟩ := merge_two hi htwo h2
  obtain ⟨new, n1, n2, n3⟩ := sizeLoop_spec ho le_rfl h5 h4
  rw [List.nil_append] at n1
  subst n1
  refine ⟨fun S hS => ?_, fun x y hs hp => ?_, np, ni ++ big, rfl, ?_, ?_, ?_⟩
  · rcases List.mem_append.1 hS with hS | hS
    · refine ⟨(m1 S hS).1, (m1 S hS).2, fun v hv => ?_, Or.inr fun x hx y hy => ?_⟩
      · obtain ⟨c, hc, hvc⟩ := (m3 v).1 ⟨S, hS, hv⟩
        obtain ⟨x, y, rfl, hs, -⟩ := (hps c).1 hc
        exact hs.subset hvc
      · have hlink : ∀ a b, (∃ c ∈ ps, a ∈ c ∧ b ∈ c) → Relation.TransGen (Link env d) a b := by
          rintro a b ⟨c, hc, ha, hb⟩
          obtain ⟨u, v, rfl, hs, hp⟩ := (hps c).1 hc
          have huv : Link env d u v := Or.inl ⟨hs, hp⟩
          have hvu : Link env d v u := Or.inr ⟨hs, hp⟩
          simp only [List.mem_cons, List.not_mem_nil, or_false] at ha hb
          rcases ha with rfl | rfl <;> rcases hb with rfl | rfl
          · exact .tail (.single huv) hvu
          · exact .single huv
          · exact .single hvu
          · exact .tail (.single hvu) huv
        have := (m4 x y).1 ⟨S, hS, hx, hy⟩
        induction this with
        | single hab => exact hlink _ _ hab
        | tail _ hab ih =>
          rename_i b c hxb
          refine (ih ?_).trans (hlink _ _ hab)
          obtain ⟨r, hr, ha, hb⟩ := (m4 x b).2 hxb
          rw [pairwise_same m2 hS hr hx ha]
          exact hb
    · obtain ⟨c1, c2, c3, c4⟩ := n2 S hS
      exact ⟨c1, by omega, fun v hv => ((h6 v).1 (c3 v hv)).1, Or.inl ((check_iff ho).1 c4)⟩
  · obtain ⟨r, hr, hx, hy⟩ := (m4 x y).2 (.single ⟨[x, y], (hps _).2 ⟨x, y, rfl, hs, hp⟩, by simp, by simp⟩)
    exact ⟨r, List.mem_append_left _ hr, hx, hy⟩
  · rw [List.append_assoc]
  · rw [← List.append_assoc]
    exact h7.append_right big
  · intro x y hxy k l hkl
    rcases List.mem_append.1 hxy with hxy | hxy
    · have := (h9 _ hxy).2
      unfold judge Tetrad.judgePureCluster at this
      exact anyE_false.1 this (k, l) (pairs_sublist.2 hkl)
    · have := (n2 _ hxy).2.1
      simp at this

theorem sizePass_none {env : Env V Col} {d : Frame V Col} {l acc : List (List V)} {B : List V} {st : List (List V) × List V}
    (h : sizePass env d l (acc, B) = .ok st) (hn : st.1.length = acc.length) :
    st = (acc, B) ∧ ∀ S ∈ l, check env d S ≠ .ok true := by
  induction l generalizing acc B st with
  | nil =>
    cases h
    simp
  | cons S l ih =>
    unfold sizePass at h
    obtain ⟨b, hb, h⟩ := bind_ok h
    cases b with
    | true =>
      exfalso
      rw [if_pos rfl] at h
      have : ∀ (l : List (List V)) (st st' : List (List V) × List V), sizePass env d l st = .ok st' → st.1.length ≤ st'.1.length := by
        intro l
        induction l with
        | nil =>
          intro st st' h
          cases h
          exact le_rfl
        | cons S l ih =>
          intro st st' h
          unfold sizePass at h
          obtain ⟨b, -, h⟩ := bind_ok h
          split at h
          · have := ih _ _ h
            simp at this
            omega
          · exact ih _ _ h
      have := this _ _ _ h
      simp at this
      omega
    | false =>
      rw [if_neg (by simp)] at h
      obtain ⟨h1, h2⟩ := ih h hn
      refine ⟨h1, List.forall_mem_cons.2 ⟨?_, h2⟩⟩
      rw [hb]
      simp

theorem sizeLoop_grows {env : Env V Col} (ho : ∀ l, (env.order l).Perm l) {d : Frame V Col} {fuel k : Nat} {acc res : List (List V)} {B : List V}
    (h : sizeLoop env d fuel k acc B = .ok res) : ∃ new, res = acc ++ new := by
  induction fuel generalizing k acc B with
  | zero =>
    cases h
    exact ⟨[], (List.append_nil _).symm⟩
  | succ fuel ih =>
    unfold sizeLoop at h
    split at h
    · obtain ⟨st, hst, h⟩ := bind_ok h
      obtain ⟨new, hn⟩ := ih h
      obtain ⟨new', hn', -⟩ := sizePass_spec ho hst
      exact ⟨new' ++ new, by rw [hn, hn', List.append_assoc]⟩
    · cases h
      exact ⟨[], (List.append_nil _).symm⟩

theorem sizeLoop_none {env : Env V Col} (ho : ∀ l, (env.order l).Perm l) {d : Frame V Col} {fuel k : Nat} {B : List V}
    (h : sizeLoop env d fuel k [] B = .ok []) (hf : (dkeys d).length ≤ fuel + k) {S : List V} (hS : S.Sublist B) (hk : k ≤ S.length)
    (hl : S.length + 2 < (dkeys d).length) : check env d S ≠ .ok true := by
  induction fuel generalizing k with
  | zero => omega
  | succ fuel ih =>
    unfold sizeLoop at h
    have := hS.length_le
    rw [if_pos ⟨by omega, by omega⟩] at h
    obtain ⟨st, hst, h⟩ := bind_ok h
    obtain ⟨new, hnew⟩ := sizeLoop_grows ho h
    have hlen : st.1 = [] := (List.append_eq_nil_iff.1 hnew.symm).1
    obtain ⟨h1, h2⟩ := sizePass_none hst (by rw [hlen])
    subst h1
    rcases Nat.lt_or_ge k S.length with hlt | hge
    · exact ih h (by omega) hlt
    · exact h2 S (mem_combinations_iff.2 ⟨hS, by omega⟩)

/-- C92, for any test: if nothing is learned, no pair passes, and no larger set that leaves at least three columns outside. -/
theorem c92_sizes {env : Env V Col} (ho : ∀ l, (env.order l).Perm l) (hi : ∀ l, (env.idxOrder l).Perm l) {d : Frame V Col}
    (hd : (dkeys d).Nodup) {p i : List (List V)} {f : Found V} (h : findCausalCluster env d p i = .ok f) (hn : f.learned = []) {S : List V}
    (hS : S.Sublist (dkeys d)) (h2 : 2 ≤ S.length) (hl : S.length = 2 ∨ S.length + 2 < (dkeys d).length) : ¬ Passes env d S := by
  obtain ⟨ps, merged, B, np, ni, big, h1, h3, h4, h5, h6, h7, h8, -, -, -, rfl⟩ := find_parts ho hd h
  obtain ⟨rfl, rfl⟩ := List.append_eq_nil_iff.1 hn
  have hps := pair_mem ho h1
  have htwo : ∀ c ∈ ps, c.Nodup ∧ c.length = 2 := by
    intro c hc
    obtain ⟨x, y, rfl, hs, -⟩ := (hps c).1 hc
    exact ⟨hd.sublist hs, rfl⟩
  obtain ⟨-, -, m3, -⟩ := merge_two hi htwo h3
  have hnil : ps = [] := by
    cases ps with
    | nil => rfl
    | cons c ps =>
      obtain ⟨x, y, rfl, -, -⟩ := (hps c).1 List.mem_cons_self
      obtain ⟨r, hr, -⟩ := (m3 x).2 ⟨[x, y], List.mem_cons_self, by simp⟩
      cases hr
  subst hnil
  rw [h8 rfl] at h5
  intro hp
  rcases Nat.lt_or_ge 2 S.length with hlt | hge
  · exact sizeLoop_none ho h5 (by omega) hS hlt (by omega) ((check_iff ho).2 hp)
  · obtain ⟨x, y, rfl⟩ := List.length_eq_two.1 (by omega : S.length = 2)
    have := (hps [x, y]).2 ⟨x, y, rfl, hS, hp⟩
    cases this

/-- If nothing is learned, no set of two or more columns passes the tests. -/
def NoneMissed (env : Env V Col) (d : Frame V Col) : Prop :=
  ∀ p i f, findCausalCluster env d p i = .ok f → f.learned = [] → ∀ S, S.Sublist (dkeys d) → 2 ≤ S.length → ¬ Passes env d S

theorem two_order {l : List V} {x y : V} (hx : x ∈ l) (hy : y ∈ l) (hne : x ≠ y) : [x, y].Sublist l ∨ [y, x].Sublist l := by
  rcases Tetrad.pairs_mem hx hy hne with h | h
  · exact Or.inl (pairs_sublist.1 h)
  · exact Or.inr (pairs_sublist.1 h)

theorem two_ne {l : List V} (hl : l.Nodup) {x y : V} (h : [x, y].Sublist l) : x ≠ y := by
  have := hl.sublist h
  simpa using this

theorem vanE_swap {env : Env V Col} (h : ∀ a b c e, env.van b a c e = env.van a b c e) (d : Frame V Col) (i j k l : V) :
    vanE env d j i k l = vanE env d i j k l := by
  unfold vanE dgetE
  cases dget d i <;> cases dget d j <;> cases dget d k <;> cases dget d l <;> first | rfl | exact h _ _ _ _

theorem vanE_exchange {env : Env V Col} (h : ∀ a b c e, env.van c e a b = env.van a b c e) (d : Frame V Col) (i j k l : V) :
    vanE env d k l i j = vanE env d i j k l := by
  unfold vanE dgetE
  cases dget d i <;> cases dget d j <;> cases dget d k <;> cases dget d l <;> first | rfl | exact h _ _ _ _

/-- C92. If the test of a tetrad depends neither on the order within its pairs nor on the order of the pairs, and nothing is learned, then no set of two
or more columns passes. The loop leaves out the sets that leave exactly two columns outside; for such a test, those two would have passed as a pair. -/
theorem c92_none {env : Env V Col} (ho : ∀ l, (env.order l).Perm l) (hi : ∀ l, (env.idxOrder l).Perm l) {d : Frame V Col}
    (hd : (dkeys d).Nodup) (hswap : ∀ a b c e, env.van b a c e = env.van a b c e) (hexch : ∀ a b c e, env.van c e a b = env.van a b c e) :
    NoneMissed env d := by
  intro p i f h hn S hS h2 hp
  have hl := vanE_swap hswap d
  have hx := vanE_exchange hexch d
  have hr : ∀ i j k l, vanE env d i j l k = vanE env d i j k l := fun i j k l => by rw [hx, hl, hx]
  rcases Nat.lt_or_ge (S.length + 2) (dkeys d).length with hlt | hge
  · exact c92_sizes ho hi hd h hn hS h2 (Or.inr hlt) hp
  · obtain ⟨hout, hp⟩ := hp
    have hSn := hd.sublist hS
    have hlen : ((dkeys d).filter fun v => v ∉ S).length + S.length ≤ (dkeys d).length := by
      have hnd : (((dkeys d).filter fun v => v ∉ S) ++ S).Nodup := by
        refine List.nodup_append.2 ⟨hd.filter _, hSn, ?_⟩
        rintro a ha b hb rfl
        simp [hb] at ha
      rw [← List.length_append]
      refine (List.subperm_of_subset hnd ?_).length_le
      intro a ha
      rcases List.mem_append.1 ha with ha | ha
      · exact (List.mem_filter.1 ha).1
      · exact hS.subset ha
    obtain ⟨k, l, hkl⟩ := List.length_eq_two.1 (by omega : ((dkeys d).filter fun v => v ∉ S).length = 2)
    have hsub : [k, l].Sublist (dkeys d) := hkl ▸ List.filter_sublist
    have hmem : ∀ v, v ∈ dkeys d → v ∉ [k, l] → v ∈ S := by
      intro v hv hnv
      by_contra hvS
      apply hnv
      rw [← hkl]
      simp [hv, hvS]
    have hkl' : ∀ v ∈ [k, l], v ∉ S := by
      intro v hv
      rw [← hkl] at hv
      simpa using (List.mem_filter.1 hv).2
    have hordmem : ∀ v ∈ [k, l], v ∈ env.order ((dkeys d).filter fun v => v ∉ S) := fun v hv => by rw [(ho _).mem_iff, hkl]; exact hv
    have hne := two_ne hd hsub
    refine c92_sizes ho hi hd h hn hsub le_rfl (Or.inl rfl) ⟨?_, ?_⟩
    · refine h2.trans (List.subperm_of_subset hSn fun v hv => ?_).length_le
      rw [List.mem_filter]
      refine ⟨hS.subset hv, ?_⟩
      simp only [decide_eq_true_eq]
      exact fun hv' => hkl' v hv' hv
    · intro a b hab x y hxy
      have hnd2 : (env.order ((dkeys d).filter fun v => v ∉ [k, l])).Nodup := (ho _).nodup_iff.2 (hd.filter _)
      have hin : ∀ v ∈ [x, y], v ∈ S := by
        intro v hv
        have := (ho _).mem_iff.1 (hxy.subset hv)
        rw [List.mem_filter] at this
        exact hmem v this.1 (by simpa using this.2)
      have hxyne := two_ne hnd2 hxy
      have habne := two_ne (hd.sublist hsub) hab
      rw [hx]
      rcases two_order (hin x (by simp)) (hin y (by simp)) hxyne with h1 | h1 <;>
        rcases two_order (hordmem a (hab.subset (by simp))) (hordmem b (hab.subset (by simp))) habne with h3 | h3
      · exact hp _ _ h1 _ _ h3
      · rw [hr]
        exact hp _ _ h1 _ _ h3
      · rw [hl]
        exact hp _ _ h1 _ _ h3
      · rw [hl, hr]
        exact hp _ _ h1 _ _ h3

/-- The full statement of C93: the clusters learned in one pass have no variable in common. -/
def Disjoint (env : Env V Col) (d : Frame V Col) : Prop :=
  ∀ p i f, findCausalCluster env d p i = .ok f → f.learned.Pairwise fun S T => ∀ x ∈ S, x ∉ T

/-- C93, partly: two clusters learned in one pass have no variable in common, or they have the same number of variables, at least three.
Missing: two clusters of one size found in the second stage; there the loop runs over the combinations of the variables that remained before it
(`c93_false`). -/
theorem c93_disjoint_partial {env : Env V Col} (ho : ∀ l, (env.order l).Perm l) (hi : ∀ l, (env.idxOrder l).Perm l) {d : Frame V Col}
    (hd : (dkeys d).Nodup) {p i : List (List V)} {f : Found V} (h : findCausalCluster env d p i = .ok f) :
    f.learned.Pairwise fun S T => (∀ x ∈ S, x ∉ T) ∨ (S.length = T.length ∧ 3 ≤ S.length) := by
  obtain ⟨ps, merged, B, np, ni, big, h1, h3, h4, h5, h6, h7, -, -, -, -, rfl⟩ := find_parts ho hd h
  have hps := pair_mem ho h1
  have htwo : ∀ c ∈ ps, c.Nodup ∧ c.length = 2 := by
    intro c hc
    obtain ⟨x, y, rfl, hs, -⟩ := (hps c).1 hc
    exact ⟨hd.sublist hs, rfl⟩
  obtain ⟨-, m2, m3, -⟩ := merge_two hi htwo h3
  obtain ⟨new, n1, n2, n3⟩ := sizeLoop_spec ho le_rfl h6 h5
  rw [List.nil_append] at n1
  subst n1
  refine List.pairwise_append.2 ⟨m2.imp fun h => Or.inl h, n3, fun S hS T hT => Or.inl fun x hx hxT => ?_⟩
  obtain ⟨c, hc, hxc⟩ := (m3 x).1 ⟨S, hS, hx⟩
  exact ((h7 x).1 ((n2 T hT).2.2.1 x hxT)).2 (List.mem_flatten.2 ⟨c, hc, hxc⟩)

/-! Witnesses. A column is its own number; the sets are read in increasing order. -/

/-- An environment in which the tetrad `i j, k l` vanishes if one of the listed sets contains `i, j` and not `k, l`, or the other way round. -/
def wenv (sets : List (List Nat)) : Env Nat Nat where
  van i j k l := .ok (sets.any fun S => (decide (i ∈ S) && decide (j ∈ S) && decide (k ∉ S) && decide (l ∉ S)) ||
    (decide (i ∉ S) && decide (j ∉ S) && decide (k ∈ S) && decide (l ∈ S)))
  order l := l
  idxOrder l := l
  lname n := 100 + n
  rows := 10

/-- The columns `0, …, n - 1`. -/
def wdata (n : Nat) : Frame Nat Nat := (List.range n).map fun i => (i, i)

/-- C93 is false: of six columns, `{0, 1, 2}` and `{1, 2, 3}` are both learned. -/
theorem c93_false : ¬ Disjoint (wenv [[0, 1, 2], [1, 2, 3]]) (wdata 6) := by
  intro h
  have := h [] [] ⟨[[0, 1, 2], [0, 4, 5], [1, 2, 3], [3, 4, 5]], [], [[0, 1, 2], [0, 4, 5], [1, 2, 3], [3, 4, 5]]⟩ (by decide +kernel)
  revert this
  decide

theorem wenv_swap (sets : List (List Nat)) (i j k l : Nat) : (wenv sets).van j i k l = (wenv sets).van i j k l := by
  simp only [wenv]
  refine congrArg Except.ok (congrArg (sets.any ·) (funext fun S => ?_))
  rw [Bool.and_comm (decide (j ∈ S)), Bool.and_comm (decide (j ∉ S))]

theorem wenv_exchange (sets : List (List Nat)) (i j k l : Nat) : (wenv sets).van k l i j = (wenv sets).van i j k l := by
  simp only [wenv]
  refine congrArg Except.ok (congrArg (sets.any ·) (funext fun S => ?_))
  by_cases h1 : i ∈ S <;> by_cases h2 : j ∈ S <;> by_cases h3 : k ∈ S <;> by_cases h4 : l ∈ S <;> simp [h1, h2, h3, h4]

/-- C92 needs the first condition: with the symmetries of the p-value only (C88), nothing is learned of five columns and `{0, 1, 2}` passes. -/
theorem c92_false : ∃ env : Env Nat Nat, (∀ l, (env.order l).Perm l) ∧ (∀ l, (env.idxOrder l).Perm l) ∧
    (∀ a b c e, env.van c e a b = env.van a b c e) ∧ (∀ a b c e, env.van b a e c = env.van a b c e) ∧ ¬ NoneMissed env (wdata 5) := by
  refine ⟨⟨fun i j k l => .ok ((decide (max i j < min k l) || decide (max k l < min i j)) &&
      ((decide (i < j) && decide (l < k)) || (decide (j < i) && decide (k < l)))),
    fun l => if l.length = 2 then l.reverse else l, fun l => l, fun n => 100 + n, 10⟩, ?_, fun _ => List.Perm.refl _, ?_, ?_, ?_⟩
  · intro l
    simp only
    split
    · exact List.reverse_perm l
    · exact List.Perm.refl l
  · intro a b c e
    simp only
    rw [Bool.or_comm (decide (max c e < min a b)), Bool.and_comm (decide (c < e)), Bool.and_comm (decide (e < c)),
      Bool.or_comm (decide (b < a) && decide (c < e))]
  · intro a b c e
    simp only
    rw [max_comm b a, min_comm e c, max_comm e c, min_comm b a, Bool.or_comm (decide (b < a) && decide (c < e))]
  · intro h
    refine h [] [] ⟨[], [], []⟩ (by decide +kernel) rfl [0, 1, 2] (by decide) (by decide) ((check_iff ?_).1 (by decide +kernel))
    intro l
    simp only
    split
    · exact List.reverse_perm l
    · exact List.Perm.refl l

/-! Cases that meet the hypotheses. -/

example : findCausalCluster (wenv [[0, 1]]) (wdata 6) [[7]] [[8]] = .ok ⟨[[0, 1]], [[7]], [[8], [0, 1]]⟩ := by decide +kernel

example : findCausalCluster (wenv [[0, 1], [1, 2], [0, 2], [3, 4, 5]]) (wdata 7) [[7]] [[8]] =
    .ok ⟨[[0, 1, 2], [3, 4, 5]], [[7], [0, 1, 2]], [[8], [3, 4, 5]]⟩ := by decide +kernel

example : findCausalCluster (wenv []) (wdata 6) [] [] = .ok ⟨[], [], []⟩ := by decide +kernel

example : NoneMissed (wenv []) (wdata 6) :=
  c92_none (fun _ => List.Perm.refl _) (fun _ => List.Perm.refl _) (by decide) (wenv_swap []) (wenv_exchange [])

end Cdmir.Hier
