import Verif.Model.Olc
import Mathlib.Data.List.Perm.Basic
import Mathlib.Data.List.Range
import Mathlib.Data.List.Nodup
import Mathlib.Data.List.Dedup
import Mathlib.Logic.Relation
import Mathlib.Tactic.Ring
import Mathlib.Tactic.Tauto

/-! Facts about `olc`: each change of the two graphs is one of a few moves. -/

set_option linter.unusedSectionVars false

namespace Cdmir.Olc

theorem hasEdge_iff {u : List (Nat × Nat)} {x y : Nat} : hasEdge u x y = true ↔ (x, y) ∈ u ∨ (y, x) ∈ u := by simp [hasEdge]

theorem hasEdge_comm (u : List (Nat × Nat)) (x y : Nat) : hasEdge u x y = hasEdge u y x := by simp [hasEdge, or_comm]

theorem mem_removeEdge {u : List (Nat × Nat)} {x y : Nat} {e : Nat × Nat} :
    e ∈ removeEdge u x y ↔ e ∈ u ∧ e ≠ (x, y) ∧ e ≠ (y, x) := by
  simp [removeEdge]

theorem removeEdge_sub (u : List (Nat × Nat)) (x y : Nat) : (removeEdge u x y).Sublist u := List.filter_sublist

theorem removeEdge_lt {u : List (Nat × Nat)} {x y : Nat} (h : hasEdge u x y = true) : (removeEdge u x y).length < u.length := by
  have hne : ¬ (removeEdge u x y).length = u.length := by
    intro e
    have := (removeEdge_sub u x y).eq_of_length e
    rcases hasEdge_iff.1 h with h | h <;> rw [← this] at h <;> simp [mem_removeEdge] at h
  have := (removeEdge_sub u x y).length_le
  omega

theorem removeEdge_le (u : List (Nat × Nat)) (x y : Nat) : (removeEdge u x y).length ≤ u.length := (removeEdge_sub u x y).length_le

theorem hasEdge_remove {u : List (Nat × Nat)} {x y a b : Nat} :
    hasEdge (removeEdge u x y) a b = true ↔ hasEdge u a b = true ∧ ¬ ((a = x ∧ b = y) ∨ (a = y ∧ b = x)) := by
  simp only [hasEdge_iff, mem_removeEdge, ne_eq, Prod.mk.injEq]
  tauto

/-- Removing one or both of two edges. -/
theorem removeTwo_lt {u : List (Nat × Nat)} {x y z : Nat} (xy : x ≠ y) (zy : z ≠ y)
    (h : hasEdge u x z = true ∨ hasEdge u y z = true) : (removeEdge (removeEdge u x z) y z).length < u.length := by
  by_cases h1 : hasEdge u x z = true
  · exact lt_of_le_of_lt (removeEdge_le _ _ _) (removeEdge_lt h1)
  · refine lt_of_lt_of_le (removeEdge_lt ?_) (removeEdge_le _ _ _)
    refine hasEdge_remove.2 ⟨h.resolve_left h1, ?_⟩
    rintro (⟨e, _⟩ | ⟨e, _⟩)
    · exact xy e.symm
    · exact zy e.symm

theorem removeTwo_both {u : List (Nat × Nat)} {x y z : Nat} (xy : x ≠ y) (zy : z ≠ y)
    (h1 : hasEdge u x z = true) (h2 : hasEdge u y z = true) : (removeEdge (removeEdge u x z) y z).length + 2 ≤ u.length := by
  have a := removeEdge_lt h1
  have b : hasEdge (removeEdge u x z) y z = true := by
    refine hasEdge_remove.2 ⟨h2, ?_⟩
    rintro (⟨e, _⟩ | ⟨e, _⟩)
    · exact xy e.symm
    · exact zy e.symm
  have := removeEdge_lt b
  omega

theorem hasEdge_sub {u v : List (Nat × Nat)} (h : v.Sublist u) {x y : Nat} (e : hasEdge v x y = true) : hasEdge u x y = true := by
  rcases hasEdge_iff.1 e with e | e
  · exact hasEdge_iff.2 (Or.inl (h.subset e))
  · exact hasEdge_iff.2 (Or.inr (h.subset e))

theorem mem_addArc {c : List (Nat × Nat)} {x y : Nat} {e : Nat × Nat} : e ∈ addArc c x y ↔ e ∈ c ∨ e = (x, y) := by
  unfold addArc
  split
  · rename_i h
    constructor
    · exact Or.inl
    · rintro (h' | rfl)
      · exact h'
      · exact h
  · simp

theorem mem_pairs {l : List Nat} (nd : l.Nodup) {p : Nat × Nat} (h : p ∈ pairs l) : p.1 ∈ l ∧ p.2 ∈ l ∧ p.1 ≠ p.2 := by
  induction l with
  | nil => simp [pairs] at h
  | cons x l ih =>
    rw [List.nodup_cons] at nd
    simp only [pairs, List.mem_append, List.mem_map] at h
    rcases h with ⟨y, hy, rfl⟩ | h
    · refine ⟨by simp, by simp [hy], fun e => ?_⟩
      simp only at e
      exact nd.1 (e ▸ hy)
    · obtain ⟨a, b, c⟩ := ih nd.2 h
      exact ⟨by simp [a], by simp [b], c⟩

theorem pairs_lt {l : List Nat} (hl : l.Pairwise (· < ·)) {p : Nat × Nat} : p ∈ pairs l ↔ p.1 ∈ l ∧ p.2 ∈ l ∧ p.1 < p.2 := by
  induction l with
  | nil => simp [pairs]
  | cons x l ih =>
    rw [List.pairwise_cons] at hl
    obtain ⟨a, b⟩ := p
    simp only [pairs, List.mem_append, List.mem_map, Prod.mk.injEq, ih hl.2, List.mem_cons]
    constructor
    · rintro (⟨y, hy, rfl, rfl⟩ | ⟨h1, h2, h3⟩)
      · exact ⟨Or.inl rfl, Or.inr hy, hl.1 _ hy⟩
      · exact ⟨Or.inr h1, Or.inr h2, h3⟩
    · rintro ⟨rfl | h1, rfl | h2, h3⟩
      · omega
      · exact Or.inl ⟨b, h2, rfl, rfl⟩
      · have := hl.1 _ h1; omega
      · exact Or.inr ⟨h1, h2, h3⟩

theorem pairs_range {n : Nat} {p : Nat × Nat} : p ∈ pairs (List.range n) ↔ p.1 < p.2 ∧ p.2 < n := by
  rw [pairs_lt List.pairwise_lt_range]
  simp only [List.mem_range]
  omega

theorem pairs_nodup {l : List Nat} (nd : l.Nodup) : (pairs l).Nodup := by
  induction l with
  | nil => simp [pairs]
  | cons x l ih =>
    rw [List.nodup_cons] at nd
    simp only [pairs]
    refine List.Nodup.append (nd.2.map fun a b h => (Prod.mk.inj h).2) (ih nd.2) ?_
    intro p hp hq
    obtain ⟨y, _, rfl⟩ := List.mem_map.1 hp
    exact nd.1 (mem_pairs nd.2 hq).1

theorem pairs_length (l : List Nat) : 2 * (pairs l).length = l.length * (l.length - 1) := by
  induction l with
  | nil => rfl
  | cons x l ih =>
    simp only [pairs, List.length_append, List.length_map, List.length_cons, Nat.add_sub_cancel, Nat.mul_add, ih]
    cases h : l.length with
    | zero => rfl
    | succ k => simp only [Nat.add_sub_cancel]; ring

theorem mem_arrangements {n : Nat} {p : Nat × Nat} : p ∈ arrangements n ↔ p.1 < n ∧ p.2 < n ∧ p.1 ≠ p.2 := by
  obtain ⟨a, b⟩ := p
  simp only [arrangements, List.mem_flatMap, List.mem_range, List.mem_map, List.mem_filter, decide_eq_true_eq, Prod.mk.injEq]
  constructor
  · rintro ⟨x, hx, y, ⟨hy, hne⟩, rfl, rfl⟩
    exact ⟨hx, hy, fun e => hne e.symm⟩
  · rintro ⟨h1, h2, h3⟩
    exact ⟨a, h1, b, ⟨h2, fun e => h3 e.symm⟩, rfl, rfl⟩

variable {Col F P : Type}

/-! ### The first two phases -/

/-- One edge is directed: `y → x`. -/
inductive Dir (n : Nat) : St Col → St Col → Prop
  | mk (s s' : St Col) (x y : Nat) (hx : x < n) (hy : y < n) (ne : x ≠ y) (h : hasEdge s.udg x y = true)
      (eu : s'.udg = removeEdge s.udg x y) (ec : s'.cg = addArc s.cg y x) : Dir n s s'

/-- Several edges are directed. -/
abbrev Dirs (n : Nat) (s s' : St Col) : Prop := Relation.ReflTransGen (Dir n) s s'

theorem Dir.sub {n : Nat} {s s' : St Col} (h : Dir n s s') : s'.udg.Sublist s.udg ∧ s'.udg.length < s.udg.length := by
  cases h with
  | mk x y hx hy ne h eu ec => rw [eu]; exact ⟨removeEdge_sub _ _ _, removeEdge_lt h⟩

theorem Dirs.sub {n : Nat} {s s' : St Col} (h : Dirs n s s') : s'.udg.Sublist s.udg := by
  induction h with
  | refl => exact List.Sublist.refl _
  | tail _ h ih => exact h.sub.1.trans ih

theorem step1_dirs (E : Env Col F P) {n : Nat} (s : St Col) {x y : Nat} (hx : x < n) (hy : y < n) (ne : x ≠ y) :
    ((step1 E s x y).2 = false ∧ (step1 E s x y).1 = s) ∨ ((step1 E s x y).2 = true ∧ Dir n s (step1 E s x y).1) := by
  unfold step1
  split
  · rename_i h
    simp only
    split
    · exact Or.inr ⟨rfl, Dir.mk _ _ x y hx hy ne h rfl rfl⟩
    · exact Or.inl ⟨rfl, rfl⟩
  · exact Or.inl ⟨rfl, rfl⟩

/-- One run of the first phase, with the flag as it is at the start. -/
def fold1 (E : Env Col F P) (l : List (Nat × Nat)) (r : St Col × Bool) : St Col × Bool :=
  l.foldl (fun r p => let q := step1 E r.1 p.1 p.2; (q.1, r.2 || q.2)) r

theorem fold1_cons (E : Env Col F P) (p : Nat × Nat) (l : List (Nat × Nat)) (r : St Col × Bool) :
    fold1 E (p :: l) r = fold1 E l ((step1 E r.1 p.1 p.2).1, r.2 || (step1 E r.1 p.1 p.2).2) := rfl

/-- A run of the first phase is a sequence of moves; it reports a change exactly if there was one. -/
theorem fold1_dirs (E : Env Col F P) {n : Nat} : ∀ (l : List (Nat × Nat)) (r : St Col × Bool),
    (∀ p ∈ l, p.1 < n ∧ p.2 < n ∧ p.1 ≠ p.2) →
    Dirs n r.1 (fold1 E l r).1 ∧ ((fold1 E l r).2 = true → r.2 = true ∨ (fold1 E l r).1.udg.length < r.1.udg.length) ∧
      ((fold1 E l r).2 = false → (fold1 E l r).1 = r.1 ∧ r.2 = false ∧ ∀ p ∈ l, (step1 E r.1 p.1 p.2).2 = false) := by
  intro l
  induction l with
  | nil => intro r _; exact ⟨Relation.ReflTransGen.refl, Or.inl, fun h => ⟨rfl, h, by simp⟩⟩
  | cons p l ih =>
    intro r hl
    rw [fold1_cons]
    obtain ⟨h1, h2, h3⟩ := hl p (by simp)
    obtain ⟨i1, i2, i3⟩ := ih ((step1 E r.1 p.1 p.2).1, r.2 || (step1 E r.1 p.1 p.2).2) (fun q hq => hl q (by simp [hq]))
    rcases step1_dirs E r.1 h1 h2 h3 with ⟨e1, e2⟩ | ⟨e1, e2⟩
    · rw [e1, e2, Bool.or_false] at i1 i2 i3
      rw [e1, e2, Bool.or_false]
      refine ⟨i1, i2, fun h => ?_⟩
      obtain ⟨j1, j2, j3⟩ := i3 h
      exact ⟨j1, j2, by simpa [e1] using fun a b => j3 (a, b)⟩
    · refine ⟨(Relation.ReflTransGen.single e2).trans i1, fun _ => Or.inr ?_, fun h => ?_⟩
      · exact lt_of_le_of_lt i1.sub.length_le e2.sub.2
      · have := (i3 h).2.1
        rw [e1] at this
        simp at this

theorem phase1_dirs (E : Env Col F P) {n : Nat} : ∀ (fuel : Nat) (s : St Col), s.udg.length < fuel →
    ∃ s', phase1 E n fuel s = Except.ok s' ∧ Dirs n s s' ∧
      ∀ p ∈ arrangements n, (step1 E s' p.1 p.2).2 = false := by
  intro fuel
  induction fuel with
  | zero => intro s h; omega
  | succ fuel ih =>
    intro s h
    have hf := fold1_dirs E (n := n) (arrangements n) (s, false) (fun p hp => mem_arrangements.1 hp)
    have hp : pass1 E n s = fold1 E (arrangements n) (s, false) := rfl
    unfold phase1
    simp only [hp]
    split
    · rename_i hc
      have := hf.2.1 hc
      simp only [Bool.false_eq_true, false_or] at this
      obtain ⟨s', e, d, p⟩ := ih (fold1 E (arrangements n) (s, false)).1 (by omega)
      exact ⟨s', e, hf.1.trans d, p⟩
    · rename_i hc
      obtain ⟨j1, _, j3⟩ := hf.2.2 (by simpa using hc)
      exact ⟨_, rfl, hf.1, by rw [j1]; exact j3⟩

/-- The fuel of the first phase does not matter once it is enough. -/
theorem phase1_mono (E : Env Col F P) {n : Nat} : ∀ (fuel fuel' : Nat) (s s' : St Col), phase1 E n fuel s = Except.ok s' →
    fuel ≤ fuel' → phase1 E n fuel' s = Except.ok s' := by
  intro fuel
  induction fuel with
  | zero => intro _ s s' h _; cases h
  | succ fuel ih =>
    intro fuel' s s' h hle
    obtain ⟨k, rfl⟩ : ∃ k, fuel' = k + 1 := ⟨fuel' - 1, by omega⟩
    unfold phase1 at h ⊢
    simp only at h ⊢
    split at h
    · rename_i hc
      rw [if_pos hc]
      exact ih k _ _ h (by omega)
    · rename_i hc
      rw [if_neg hc]
      exact h

/-- The directed edges of a neighbourhood. -/
def dirAll (s : St Col) (x : Nat) (adj : List Nat) : St Col :=
  adj.foldl (fun s y => ⟨s.data, removeEdge s.udg x y, addArc s.cg y x⟩) s

theorem dirAll_dirs {n : Nat} {x : Nat} (hx : x < n) : ∀ (adj : List Nat) (s : St Col), adj.Nodup →
    (∀ y ∈ adj, y < n ∧ y ≠ x ∧ hasEdge s.udg x y = true) → Dirs n s (dirAll s x adj) ∧ (dirAll s x adj).data = s.data := by
  intro adj
  induction adj with
  | nil => intro s _ _; exact ⟨Relation.ReflTransGen.refl, rfl⟩
  | cons y adj ih =>
    intro s nd h
    rw [List.nodup_cons] at nd
    obtain ⟨h1, h2, h3⟩ := h y (by simp)
    have hd : Dir n s ⟨s.data, removeEdge s.udg x y, addArc s.cg y x⟩ := Dir.mk _ _ x y hx h1 (fun e => h2 e.symm) h3 rfl rfl
    obtain ⟨i1, i2⟩ := ih ⟨s.data, removeEdge s.udg x y, addArc s.cg y x⟩ nd.2 (fun z hz => by
      obtain ⟨k1, k2, k3⟩ := h z (by simp [hz])
      refine ⟨k1, k2, hasEdge_remove.2 ⟨k3, ?_⟩⟩
      rintro (⟨_, rfl⟩ | ⟨e, _⟩)
      · exact nd.1 hz
      · exact h2 e.symm)
    exact ⟨(Relation.ReflTransGen.single hd).trans i1, i2⟩

theorem Dirs.le {n : Nat} {s s' : St Col} (h : Dirs n s s') : s' = s ∨ s'.udg.length < s.udg.length := by
  rcases Relation.ReflTransGen.cases_head h with rfl | ⟨t, h1, h2⟩
  · exact Or.inl rfl
  · exact Or.inr (lt_of_le_of_lt (Dirs.sub h2).length_le h1.sub.2)

/-- The edges of a graph are pairs of different nodes below `n`. -/
def Edges (n : Nat) (u : List (Nat × Nat)) : Prop := u.Nodup ∧ ∀ e ∈ u, e.1 < e.2 ∧ e.2 < n

theorem Edges.sub {n : Nat} {u v : List (Nat × Nat)} (h : Edges n u) (s : v.Sublist u) : Edges n v :=
  ⟨s.nodup h.1, fun e he => h.2 e (s.subset he)⟩

theorem Edges.of {n : Nat} {u : List (Nat × Nat)} (h : Edges n u) {x y : Nat} (e : hasEdge u x y = true) : x < n ∧ y < n ∧ x ≠ y := by
  rcases hasEdge_iff.1 e with e | e <;> have := h.2 _ e <;> simp only at this <;> omega

theorem edges_init (n : Nat) : Edges n (pairs (List.range n)) :=
  ⟨pairs_nodup List.nodup_range, fun _ he => pairs_range.1 he⟩

theorem mem_nodes {n x : Nat} (hn : n ≠ 1) : x ∈ nodes n ↔ x < n := by simp [nodes, hn]

theorem step2_dirs (E : Env Col F P) {n : Nat} (hn : n ≠ 1) (s : St Col) (he : Edges n s.udg) {x : Nat} (hx : x < n) :
    ∃ r, step2 E n s x = Except.ok r ∧ Dirs n s r.1 ∧ r.1.data = s.data ∧ (r.2 = true → r.1.udg.length < s.udg.length) ∧
      (r.2 = false → r.1 = s) := by
  unfold step2 neighbors
  rw [if_pos ((mem_nodes hn).2 hx)]
  simp only [pure_bind]
  split
  · exact ⟨_, rfl, Relation.ReflTransGen.refl, rfl, by simp, fun _ => rfl⟩
  · rename_i hne
    split
    · refine ⟨_, rfl, ?_⟩
      obtain ⟨d1, d2⟩ := dirAll_dirs hx ((List.range n).filter fun y => hasEdge s.udg x y) s (List.nodup_range.filter _)
        (fun y hy => by
          rw [List.mem_filter] at hy
          obtain ⟨a, b, c⟩ := he.of hy.2
          exact ⟨b, fun e => c e.symm, hy.2⟩)
      refine ⟨d1, d2, fun _ => ?_, by simp⟩
      rcases d1.le with e | e
      · exfalso
        obtain ⟨y, hyn, hy'⟩ : ∃ y, y < n ∧ hasEdge s.udg x y = true := by simpa using hne
        have hy : y ∈ (List.range n).filter fun y => hasEdge s.udg x y := List.mem_filter.2 ⟨List.mem_range.2 hyn, hy'⟩
        have key : ∀ (l : List Nat) (t : St Col), y ∈ l → hasEdge (dirAll t x l).udg x y = false := by
          intro l
          induction l with
          | nil => intro t h; simp at h
          | cons z l ih =>
            intro t h
            by_cases hl : y ∈ l
            · exact ih _ hl
            · have : y = z := by simpa [hl] using h
              subst this
              have sub : ∀ (l : List Nat) (t : St Col), (dirAll t x l).udg.Sublist t.udg := by
                intro l
                induction l with
                | nil => intro t; exact List.Sublist.refl _
                | cons w l ih => intro t; exact (ih _).trans (removeEdge_sub _ _ _)
              by_contra hc
              have hc' : hasEdge (dirAll t x (y :: l)).udg x y = true := by simpa using hc
              have := hasEdge_sub (sub l ⟨t.data, removeEdge t.udg x y, addArc t.cg y x⟩) hc'
              rw [hasEdge_remove] at this
              simp at this
        have := key _ s hy
        rw [e] at this
        rw [this] at hy'
        simp at hy'
      · exact e
    · exact ⟨_, rfl, Relation.ReflTransGen.refl, rfl, by simp, fun _ => rfl⟩

theorem pass2_dirs (E : Env Col F P) {n : Nat} (hn : n ≠ 1) : ∀ (l : List Nat) (r : St Col × Bool), (∀ x ∈ l, x < n) →
    Edges n r.1.udg →
    ∃ r', l.foldlM (fun r x => do let q ← step2 E n r.1 x; pure (q.1, r.2 || q.2)) r = Except.ok r' ∧ Dirs n r.1 r'.1 ∧
      r'.1.data = r.1.data ∧ (r'.2 = true → r.2 = true ∨ r'.1.udg.length < r.1.udg.length) := by
  intro l
  induction l with
  | nil => intro r _ _; exact ⟨r, rfl, Relation.ReflTransGen.refl, rfl, Or.inl⟩
  | cons x l ih =>
    intro r hl he
    obtain ⟨q, e, d, dd, q1, q2⟩ := step2_dirs E hn r.1 he (hl x (by simp))
    obtain ⟨r', e', d', dd', q'⟩ := ih (q.1, r.2 || q.2) (fun y hy => hl y (by simp [hy])) (he.sub d.sub)
    refine ⟨r', ?_, d.trans d', dd'.trans dd, fun h => ?_⟩
    · simp only [List.foldlM_cons, e]
      exact e'
    · rcases q' h with h | h
      · simp only [Bool.or_eq_true] at h
        rcases h with h | h
        · exact Or.inl h
        · exact Or.inr (lt_of_le_of_lt d'.sub.length_le (q1 h))
      · exact Or.inr (lt_of_lt_of_le h d.sub.length_le)

theorem phase2_dirs (E : Env Col F P) {n : Nat} (hn : n ≠ 1) : ∀ (fuel : Nat) (s : St Col), s.udg.length < fuel → Edges n s.udg →
    ∃ s', phase2 E n fuel s = Except.ok s' ∧ Dirs n s s' ∧ s'.data = s.data := by
  intro fuel
  induction fuel with
  | zero => intro s h; omega
  | succ fuel ih =>
    intro s h he
    obtain ⟨r, e, d, dd, q⟩ := pass2_dirs E hn (List.range n) (s, false) (fun x hx => List.mem_range.1 hx) he
    have e' : pass2 E n s = Except.ok r := e
    unfold phase2
    rw [e']
    simp only [Except.bind, bind]
    split
    · rename_i hc
      have := q hc
      simp only [Bool.false_eq_true, false_or] at this
      obtain ⟨s', e2, d2, dd2⟩ := ih r.1 (by omega) (he.sub d.sub)
      exact ⟨s', e2, d.trans d2, dd2.trans dd⟩
    · exact ⟨_, rfl, d, dd⟩

/-! ### The third phase -/

variable [Zero F] [Sub F] [Mul F] [Div F]

/-- The entries of `A` for pairs of different observed variables without an undirected edge are the same. -/
def SameOff (n : Nat) (u : List (Nat × Nat)) (A A' : Nat → Nat → F) : Prop :=
  ∀ i j, i < n → j < n → i ≠ j → hasEdge u i j = false → A' i j = A i j

/-- An edge between `x` and `y` was dropped because `y` is independent of a combination of `x` with other columns. -/
def Evidence (E : Env Col F P) (data : Nat → Col) (x y : Nat) : Prop :=
  E.geBeta E.zeroP = true ∨ ∃ (omega : List F) (cs : List Nat), E.geBeta (E.pval (E.comb omega (data x :: cs.map data)) (data y)) = true

/-- The moves of the third phase with the latent variable `l`. -/
inductive Move (E : Env Col F P) (data : Nat → Col) (n l : Nat) : St3 F → St3 F → Prop
  | test (s s' : St3 F) (x y : Nat) (h : hasEdge s.udg x y = true) (ev : Evidence E data x y)
      (eu : s'.udg = removeEdge s.udg x y) (ec : s'.cg = s.cg) (eA : s'.A = s.A) (el : s'.latent = s.latent)
      (eo : s'.orient = s.orient) : Move E data n l s s'
  | orient (s s' : St3 F) (x y : Nat) (h : hasEdge s.udg x y = true)
      (eu : s'.udg = removeEdge s.udg x y) (ec : s'.cg = addArc s.cg x y) (eA : SameOff n s.udg s.A s'.A)
      (el : s'.latent = s.latent) (eo : s'.orient = true) : Move E data n l s s'
  | fail (s s' : St3 F) (eu : s'.udg = s.udg) (ec : s'.cg = s.cg) (eA : SameOff n s.udg s.A s'.A)
      (el : s'.latent = s.latent) (eo : s'.orient = s.orient) : Move E data n l s s'
  | latent (s s' : St3 F) (x y z : Nat) (hx : x < n) (hy : y < n) (hz : z < n) (xy : x ≠ y) (zx : z ≠ x) (zy : z ≠ y)
      (hl : l < 2 * n) (h : hasEdge s.udg x z = true ∨ hasEdge s.udg y z = true)
      (eu : s'.udg = removeEdge (removeEdge s.udg x z) y z) (ec : s'.cg = addArc (addArc (addArc s.cg l x) l y) l z)
      (eA : SameOff n s.udg s.A s'.A) (el : s'.latent = true) (eo : s'.orient = s.orient) : Move E data n l s s'

/-- Several moves. -/
abbrev Moves (E : Env Col F P) (data : Nat → Col) (n l : Nat) (s s' : St3 F) : Prop := Relation.ReflTransGen (Move E data n l) s s'

variable {E : Env Col F P} {data : Nat → Col} {n l : Nat}

theorem Move.sub {s s' : St3 F} (h : Move E data n l s s') : s'.udg.Sublist s.udg := by
  cases h with
  | test x y h ev eu => rw [eu]; exact removeEdge_sub _ _ _
  | orient x y h eu => rw [eu]; exact removeEdge_sub _ _ _
  | fail eu => rw [eu]
  | latent x y z hx hy hz xy zx zy hl h eu => rw [eu]; exact (removeEdge_sub _ _ _).trans (removeEdge_sub _ _ _)

theorem Moves.sub {s s' : St3 F} (h : Moves E data n l s s') : s'.udg.Sublist s.udg := by
  induction h with
  | refl => exact List.Sublist.refl _
  | tail _ h ih => exact h.sub.trans ih

theorem setA_ne (A : Nat → Nat → F) {i j a b : Nat} (v : F) (h : ¬ (a = i ∧ b = j)) : setA A i j v a b = A a b := by
  unfold setA
  by_cases ha : a = i
  · subst ha
    have hb : b ≠ j := fun e => h ⟨rfl, e⟩
    simp [hb]
  · simp [ha]

theorem SameOff.refl (n : Nat) (u : List (Nat × Nat)) (A : Nat → Nat → F) : SameOff n u A A := fun _ _ _ _ _ _ => rfl

theorem SameOff.trans {u : List (Nat × Nat)} {A A' A'' : Nat → Nat → F} (h : SameOff n u A A') (h' : SameOff n u A' A'') :
    SameOff n u A A'' := fun i j a b c d => (h' i j a b c d).trans (h i j a b c d)

/-- Writing to the diagonal, at an undirected edge or in the column of a latent variable. -/
theorem SameOff.set {u : List (Nat × Nat)} {A : Nat → Nat → F} {i j : Nat} {v : F} (h : i = j ∨ hasEdge u i j = true ∨ n ≤ j) :
    SameOff n u A (setA A i j v) := by
  intro a b ha hb ne he
  refine setA_ne _ _ ?_
  rintro ⟨rfl, rfl⟩
  rcases h with h | h | h
  · exact ne h
  · rw [he] at h; simp at h
  · omega

theorem SameOff.ite {u : List (Nat × Nat)} {A A' : Nat → Nat → F} (c : Bool) (h : SameOff n u A A') :
    SameOff n u A (if c then A' else A) := by
  cases c
  · exact SameOff.refl _ _ _
  · exact h

theorem orientA_same (cov : Nat → Nat → F) (ce : List Nat) (A : Nat → Nat → F) {u : List (Nat × Nat)} {x y : Nat}
    (h : hasEdge u x y = true) : SameOff n u A (orientA E cov ce A x y).1 := by
  have h1 : hasEdge u y x = true := by rw [hasEdge_comm]; exact h
  exact (SameOff.ite _ (SameOff.set (Or.inl rfl))).trans (SameOff.ite _ (SameOff.set (Or.inr (Or.inl h1))))

theorem tryOrient_move (cov : Nat → Nat → F) (cs ce : List Nat) (s : St3 F) {x y : Nat} (h : hasEdge s.udg x y = true) :
    Move E data n l s (tryOrient E data cov cs ce s x y).1 ∧
      ((tryOrient E data cov cs ce s x y).2 = false → (tryOrient E data cov cs ce s x y).1.udg = s.udg) := by
  have h1 : hasEdge s.udg y x = true := by rw [hasEdge_comm]; exact h
  have same := orientA_same (E := E) (n := n) cov ce s.A h
  unfold tryOrient
  generalize orientA E cov ce s.A x y = a at same
  simp only
  by_cases hb : E.geBeta (surrPval E data a.1 ([x, y] ++ cs) (ce ++ [x]) x) = true
  · rw [if_pos hb]
    exact ⟨Move.orient _ _ x y h rfl rfl same rfl rfl, by simp⟩
  · rw [if_neg hb]
    refine ⟨Move.fail _ _ rfl rfl (same.trans ?_) rfl rfl, fun _ => rfl⟩
    exact (SameOff.ite _ (SameOff.set (Or.inl rfl))).trans (SameOff.ite _ (SameOff.set (Or.inr (Or.inl h1))))

theorem latentA_same (ez : Col) (A : Nat → Nat → F) (u : List (Nat × Nat)) (x y z : Nat) (hn : n ≤ l) :
    SameOff n u A (latentA E data ez A l x y z).1 := by
  have st : ∀ (A : Nat → Nat → F) (i : Nat) (v : F) (c : Bool), SameOff n u A (if c then setA A i l v else A) :=
    fun A i v c => SameOff.ite _ (SameOff.set (Or.inr (Or.inr hn)))
  exact (st _ _ _ _).trans ((st _ _ _ _).trans (st _ _ _ _))

theorem tryLatent_move (s : St3 F) {x y z : Nat} (hx : x < n) (hy : y < n) (hz : z < n) (xy : x ≠ y) (zx : z ≠ x) (zy : z ≠ y)
    (hn : n ≤ l) (hl : l < 2 * n) (h : hasEdge s.udg x z = true ∨ hasEdge s.udg y z = true) :
    Move E data n l s (tryLatent E data l s x y z).1 := by
  unfold tryLatent
  simp only
  generalize E.order (twoOf (s.surrogate x) (s.surrogate y) (s.surrogate z)) = cs
  generalize E.order (twoOf (s.exogenous x) (s.exogenous y) (s.exogenous z)) = ce
  generalize (if cs.isEmpty then data z else (surrReg E data s.A cs ce (some z)).getD (data z)) = ez
  have same := latentA_same (E := E) (data := data) ez s.A s.udg x y z hn
  generalize latentA E data ez s.A l x y z = a at same
  by_cases hb : E.geBeta (surrPval E data a.1 (cs ++ [x, y]) (ce ++ [l]) z) = true
  · rw [if_pos hb]
    exact Move.latent _ _ x y z hx hy hz xy zx zy hl h rfl rfl same rfl rfl
  · rw [if_neg hb]
    have st : ∀ (A : Nat → Nat → F) (i : Nat) (v : F) (c : Bool), SameOff n s.udg A (if c then setA A i l v else A) :=
      fun A i v c => SameOff.ite _ (SameOff.set (Or.inr (Or.inr hn)))
    exact Move.fail _ _ rfl rfl (same.trans ((st _ _ _ _).trans ((st _ _ _ _).trans (st _ _ _ _)))) rfl rfl

/-- The search for a latent variable: a sequence of moves, or an `IndexError` with an edge left. -/
theorem latentLoop_moves (hn : n ≤ l) {x y : Nat} (hx : x < n) (hy : y < n) (xy : x ≠ y) : ∀ (zs : List Nat) (s : St3 F),
    (∀ z ∈ zs, z < n) →
    (∃ s', latentLoop E data n l x y zs s = Except.ok s' ∧ Moves E data n l s s') ∨
    (latentLoop E data n l x y zs s = Except.error .index ∧ 2 * n ≤ l ∧
      ∃ z, z ≠ x ∧ z ≠ y ∧ (hasEdge s.udg x z = true ∨ hasEdge s.udg y z = true)) := by
  intro zs
  induction zs with
  | nil => intro s _; exact Or.inl ⟨s, rfl, Relation.ReflTransGen.refl⟩
  | cons z zs ih =>
    intro s hz
    unfold latentLoop
    split
    · exact ih s (fun w hw => hz w (by simp [hw]))
    · rename_i hne
      split
      · exact ih s (fun w hw => hz w (by simp [hw]))
      · rename_i he
        have he' : hasEdge s.udg x z = true ∨ hasEdge s.udg y z = true := by
          cases h1 : hasEdge s.udg x z <;> cases h2 : hasEdge s.udg y z <;> simp_all
        split
        · rename_i hl
          exact Or.inr ⟨rfl, hl, z, fun e => hne (Or.inl e), fun e => hne (Or.inr e), he'⟩
        · rename_i hl
          have mv := tryLatent_move (E := E) (data := data) s hx hy (hz z (by simp)) xy (fun e => hne (Or.inl e))
            (fun e => hne (Or.inr e)) hn (by omega) he'
          simp only
          split
          · exact Or.inl ⟨_, rfl, Relation.ReflTransGen.single mv⟩
          · rcases ih (tryLatent E data l s x y z).1 (fun w hw => hz w (by simp [hw])) with ⟨s', e, m⟩ | ⟨_, h2, _⟩
            · exact Or.inl ⟨s', e, (Relation.ReflTransGen.single mv).trans m⟩
            · omega

theorem surrPval_evidence (A : Nat → Nat → F) {x y : Nat} {cs ce : List Nat}
    (h : E.geBeta (surrPval E data A ([x] ++ cs) ce y) = true) : Evidence E data x y := by
  unfold surrPval at h
  split at h
  · rename_i e he
    unfold surrReg at he
    simp only at he
    split at he
    · cases he
    · rename_i omega _
      simp only [Option.isSome_none, Bool.false_eq_true, if_false, Option.some.injEq] at he
      subst he
      exact Or.inr ⟨omega, cs, by simpa using h⟩
  · exact Or.inl h

theorem pairTest_moves (cov : Nat → Nat → F) (s : St3 F) {x y : Nat} (h : hasEdge s.udg x y = true) :
    Moves E data n l s (pairTest E data cov s x y).1 ∧
    ((pairTest E data cov s x y).2 = (x, y) ∨ (pairTest E data cov s x y).2 = (y, x)) := by
  unfold pairTest
  simp only
  split
  · rename_i ev
    have ev' : Evidence E data x y := surrPval_evidence s.A ev
    have h0 : hasEdge (removeEdge s.udg x y) x y = false := by
      by_contra hc
      have := hasEdge_remove.1 (by simpa using hc)
      simp at this
    rw [if_neg (by simp [h0])]
    exact ⟨Relation.ReflTransGen.single (Move.test _ _ x y h ev' rfl rfl rfl rfl rfl), Or.inl rfl⟩
  · split
    · obtain ⟨m1, u1⟩ := tryOrient_move (E := E) (data := data) (n := n) (l := l) cov
        (E.order (inter (s.surrogate x) (s.surrogate y))) (E.order (inter (s.exogenous x) (s.exogenous y))) s h
      split
      · exact ⟨Relation.ReflTransGen.single m1, Or.inl rfl⟩
      · rename_i hf
        have u1' := u1 (by simpa using hf)
        have h' : hasEdge (tryOrient E data cov (E.order (inter (s.surrogate x) (s.surrogate y)))
            (E.order (inter (s.exogenous x) (s.exogenous y))) s x y).1.udg y x = true := by rw [u1', hasEdge_comm]; exact h
        obtain ⟨m2, _⟩ := tryOrient_move (E := E) (data := data) (n := n) (l := l) cov
          (E.order (inter (s.surrogate x) (s.surrogate y))) (E.order (inter (s.exogenous x) (s.exogenous y))) _ h'
        have mm := (Relation.ReflTransGen.single m1).trans (Relation.ReflTransGen.single m2)
        split
        · exact ⟨mm, Or.inr rfl⟩
        · exact ⟨mm, Or.inl rfl⟩
    · exact ⟨Relation.ReflTransGen.refl, Or.inl rfl⟩

/-- One pair of the third phase: a sequence of moves, or an `IndexError` with two edges left. -/
theorem step3_moves (cov : Nat → Nat → F) (hn : n ≤ l) {po : List Nat} (hpo : ∀ z ∈ po, z < n) (s : St3 F) (hs : Edges n s.udg)
    (p : Nat × Nat) :
    (∃ s', step3 E data cov n l po s p = Except.ok s' ∧ Moves E data n l s s') ∨
    (step3 E data cov n l po s p = Except.error .index ∧ 2 * n ≤ l ∧ 2 ≤ s.udg.length) := by
  unfold step3
  split
  · rename_i h
    obtain ⟨hx, hy, xy⟩ := hs.of h
    obtain ⟨m, hv⟩ := pairTest_moves (E := E) (data := data) (n := n) (l := l) cov s h
    simp only
    obtain ⟨hx', hy', xy'⟩ : (pairTest E data cov s p.1 p.2).2.1 < n ∧ (pairTest E data cov s p.1 p.2).2.2 < n ∧
        (pairTest E data cov s p.1 p.2).2.1 ≠ (pairTest E data cov s p.1 p.2).2.2 := by
      rcases hv with e | e <;> rw [e]
      · exact ⟨hx, hy, xy⟩
      · exact ⟨hy, hx, fun e => xy e.symm⟩
    rcases latentLoop_moves (E := E) (data := data) hn hx' hy' xy' po (pairTest E data cov s p.1 p.2).1 hpo with
      ⟨s', e, m'⟩ | ⟨e, hl, z, z1, z2, hz⟩
    · exact Or.inl ⟨s', e, m.trans m'⟩
    · refine Or.inr ⟨e, hl, ?_⟩
      by_contra hlen
      have sub : (pairTest E data cov s p.1 p.2).1.udg.Sublist s.udg := m.sub
      obtain ⟨e1, he1⟩ : ∃ e1, s.udg = [e1] := by
        rcases hu : s.udg with _ | ⟨e1, _ | ⟨e2, t⟩⟩
        · rw [hu] at h; simp [hasEdge] at h
        · exact ⟨e1, rfl⟩
        · rw [hu] at hlen; simp at hlen
      have h2 : hasEdge s.udg (pairTest E data cov s p.1 p.2).2.1 z = true ∨
          hasEdge s.udg (pairTest E data cov s p.1 p.2).2.2 z = true := hz.imp (hasEdge_sub sub) (hasEdge_sub sub)
      rw [he1] at h h2
      simp only [hasEdge_iff, List.mem_singleton] at h h2
      rcases hv with e | e <;> rw [e] at z1 z2 h2 <;> simp only at z1 z2 h2 <;>
        rcases h with h | h <;> rw [← h] at h2 <;> simp only [Prod.mk.injEq] at h2 <;> omega
  · exact Or.inl ⟨s, rfl, Relation.ReflTransGen.refl⟩

theorem fold3_moves (cov : Nat → Nat → F) (hn : n ≤ l) {po : List Nat} (hpo : ∀ z ∈ po, z < n) : ∀ (ps : List (Nat × Nat))
    (s : St3 F), Edges n s.udg →
    (∃ s', ps.foldlM (step3 E data cov n l po) s = Except.ok s' ∧ Moves E data n l s s') ∨
    (ps.foldlM (step3 E data cov n l po) s = Except.error .index ∧ 2 * n ≤ l ∧ ∃ s', Moves E data n l s s' ∧ 2 ≤ s'.udg.length) := by
  intro ps
  induction ps with
  | nil => intro s _; exact Or.inl ⟨s, rfl, Relation.ReflTransGen.refl⟩
  | cons p ps ih =>
    intro s hs
    rw [List.foldlM_cons]
    rcases step3_moves (E := E) (data := data) cov hn hpo s hs p with ⟨s1, e, m⟩ | ⟨e, h1, h2⟩
    · rw [e]
      rcases ih s1 (hs.sub m.sub) with ⟨s2, e2, m2⟩ | ⟨e2, h1, s2, m2, h2⟩
      · exact Or.inl ⟨s2, e2, m.trans m2⟩
      · exact Or.inr ⟨e2, h1, s2, m.trans m2, h2⟩
    · rw [e]
      exact Or.inr ⟨rfl, h1, s, Relation.ReflTransGen.refl, h2⟩

/-- If a run of the third phase reports a change, an edge was removed. -/
theorem Moves.lt {s s' : St3 F} (m : Moves E data n l s s') (h : (s'.latent || s'.orient) = true)
    (h0 : (s.latent || s.orient) = false) : s'.udg.length < s.udg.length := by
  have key : (s'.latent || s'.orient) = (s.latent || s.orient) ∨ s'.udg.length < s.udg.length := by
    clear h h0
    induction m with
    | refl => exact Or.inl rfl
    | tail m1 m2 ih =>
      have hle := (Moves.sub m1).length_le
      cases m2 with
      | test x y h ev eu ec eA el eo => rw [el, eo, eu]; exact Or.inr (lt_of_lt_of_le (removeEdge_lt h) hle)
      | orient x y h eu => rw [eu]; exact Or.inr (lt_of_lt_of_le (removeEdge_lt h) hle)
      | fail eu ec eA el eo => rw [el, eo, eu]; exact ih
      | latent x y z hx hy hz xy zx zy hl h eu =>
        rw [eu]
        exact Or.inr (lt_of_lt_of_le (removeTwo_lt xy zy h) hle)
  rcases key with e | e
  · rw [h, h0] at e; cases e
  · exact e

/-- The whole third phase: `lid` and the state before each run. -/
inductive Reach (E : Env Col F P) (data : Nat → Col) (n : Nat) : Nat × St3 F → Nat × St3 F → Prop
  | move (lid : Nat) (s s' : St3 F) (m : Move E data n (lid + n) s s') : Reach E data n (lid, s) (lid, s')
  | next (lid : Nat) (s s' : St3 F) (eu : s'.udg = s.udg) (ec : s'.cg = s.cg) (eA : s'.A = s.A) (el : s'.latent = false)
      (eo : s'.orient = false) : Reach E data n (lid, s) (if s.latent then lid + 1 else lid, s')

theorem reach_of_moves {lid : Nat} {s s' : St3 F} (m : Moves E data n (lid + n) s s') :
    Relation.ReflTransGen (Reach E data n) (lid, s) (lid, s') := by
  induction m with
  | refl => exact Relation.ReflTransGen.refl
  | tail _ h ih => exact ih.tail (Reach.move _ _ _ h)

theorem phase3_reach (cov : Nat → Nat → F) {po : List Nat} (hpo : ∀ z ∈ po, z < n) : ∀ (fuel lid : Nat) (s : St3 F),
    s.udg.length < fuel → Edges n s.udg →
    (∃ s' lid', phase3 E data cov n po fuel (if s.latent then lid + 1 else lid) s = Except.ok (s', lid') ∧
      Relation.ReflTransGen (Reach E data n) (lid, s) (lid', s') ∧ s'.latent = false) ∨
    (phase3 E data cov n po fuel (if s.latent then lid + 1 else lid) s = Except.error .index ∧
      ∃ lid' s', Relation.ReflTransGen (Reach E data n) (lid, s) (lid', s') ∧ n ≤ lid' ∧ 2 ≤ s'.udg.length) := by
  intro fuel
  induction fuel with
  | zero => intro _ s h; omega
  | succ fuel ih =>
    intro lid0 s h he
    have r0 : Reach E data n (lid0, s) (if s.latent then lid0 + 1 else lid0, { s with latent := false, orient := false }) :=
      Reach.next _ _ _ rfl rfl rfl rfl rfl
    generalize (if s.latent then lid0 + 1 else lid0) = lid at r0 ⊢
    unfold phase3
    rcases fold3_moves (E := E) (data := data) cov (Nat.le_add_left n lid) hpo (pairs po)
      { s with latent := false, orient := false } he with ⟨s1, e, m⟩ | ⟨e, h1, s1, m, h2⟩
    · rw [e]
      simp only [Except.bind, bind]
      have rr := (Relation.ReflTransGen.single r0).trans (reach_of_moves m)
      split
      · rename_i hc
        have hlt := m.lt hc rfl
        simp only at hlt
        rcases ih lid s1 (by omega) (he.sub m.sub) with ⟨s', lid', e', r', f'⟩ | ⟨e', lid', s', r', a, b⟩
        · exact Or.inl ⟨s', lid', e', rr.trans r', f'⟩
        · exact Or.inr ⟨e', lid', s', rr.trans r', a, b⟩
      · rename_i hc
        exact Or.inl ⟨s1, lid, rfl, rr, by revert hc; cases s1.latent <;> simp⟩
    · rw [e]
      exact Or.inr ⟨rfl, lid, s1, (Relation.ReflTransGen.single r0).trans (reach_of_moves m), by omega, h2⟩

theorem phase3_mono (cov : Nat → Nat → F) {po : List Nat} : ∀ (fuel fuel' lid : Nat) (s : St3 F),
    phase3 E data cov n po fuel lid s ≠ Except.error .fuel →
    fuel ≤ fuel' → phase3 E data cov n po fuel' lid s = phase3 E data cov n po fuel lid s := by
  intro fuel
  induction fuel with
  | zero => intro _ lid s h _; exact absurd rfl h
  | succ fuel ih =>
    intro fuel' lid s h hle
    obtain ⟨k, rfl⟩ : ∃ k, fuel' = k + 1 := ⟨fuel' - 1, by omega⟩
    unfold phase3 at h ⊢
    cases hp : (pairs po).foldlM (step3 E data cov n (lid + n) po) { s with latent := false, orient := false } with
    | error e => rfl
    | ok r =>
      rw [hp] at h
      simp only [Except.bind, bind] at h ⊢
      split
      · rename_i hc
        rw [if_pos hc] at h
        exact ih k _ _ h (by omega)
      · rfl

/-! ### The whole algorithm -/

/-- What is assumed of networkx and of sets: cliques consist of nodes without repetition, and iterating over a set gives every
element once. -/
structure Env.Right (E : Env Col F P) : Prop where
  order : ∀ l : List Nat, l.Nodup → (E.order l).Perm l
  cliques : ∀ V u, V.Nodup → ∀ c ∈ E.cliques V u, c.Nodup ∧ ∀ i ∈ c, i ∈ V

theorem mem_union {a b : List Nat} {i : Nat} : i ∈ union a b ↔ i ∈ a ∨ i ∈ b := by
  simp only [union, List.mem_append, List.mem_filter, decide_eq_true_eq]
  tauto

theorem union_nodup {a b : List Nat} (ha : a.Nodup) (hb : b.Nodup) : (union a b).Nodup := by
  refine List.Nodup.append ha (hb.filter _) ?_
  intro i hi hj
  simp only [List.mem_filter, decide_eq_true_eq] at hj
  exact hj.2 hi

theorem partialObserved_lt (hE : E.Right) (u : List (Nat × Nat)) : ∀ z ∈ partialObserved E n u, z < n := by
  have key : ∀ (cs : List (List Nat)) (a : List Nat), a.Nodup → (∀ i ∈ a, i < n) → (∀ c ∈ cs, c.Nodup ∧ ∀ i ∈ c, i < n) →
      (cs.foldl union a).Nodup ∧ ∀ i ∈ cs.foldl union a, i < n := by
    intro cs
    induction cs with
    | nil => intro a h1 h2 _; exact ⟨h1, h2⟩
    | cons c cs ih =>
      intro a h1 h2 h3
      obtain ⟨c1, c2⟩ := h3 c (by simp)
      refine ih _ (union_nodup h1 c1) ?_ (fun d hd => h3 d (by simp [hd]))
      intro i hi
      rcases mem_union.1 hi with h | h
      · exact h2 i h
      · exact c2 i h
  obtain ⟨k1, k2⟩ := key (E.cliques (nodes n) u) [] (by simp) (by simp) (fun c hc => by
    obtain ⟨c1, c2⟩ := hE.cliques _ _ (by unfold nodes; split <;> simp [List.nodup_range]) c hc
    refine ⟨c1, fun i hi => ?_⟩
    have := c2 i hi
    unfold nodes at this
    split at this
    · simp at this
    · simpa using this)
  intro z hz
  exact k2 z ((hE.order _ k1).mem_iff.1 hz)

/-- The state at the start. -/
abbrev init (n : Nat) (data : Nat → Col) : St Col := ⟨data, pairs (List.range n), []⟩

/-- The state at the start of the third phase. -/
abbrev init3 (s : St Col) : St3 F := ⟨s.udg, s.cg, fun _ _ => 0, fun _ => [], fun _ => [], false, false⟩

theorem olc_reach (hE : E.Right) (hn : n ≠ 1) (data : Nat → Col) {fuel : Nat} (hf : (pairs (List.range n)).length < fuel) :
    ∃ s1 s2, phase1 E n fuel (init n data) = Except.ok s1 ∧ Dirs n (init n data) s1 ∧
      (∀ p ∈ arrangements n, (step1 E s1 p.1 p.2).2 = false) ∧ phase2 E n fuel s1 = Except.ok s2 ∧ Dirs n s1 s2 ∧
      s2.data = s1.data ∧
      ((∃ s' lid', olc E fuel n data =
            Except.ok ⟨lid' + n, adjmatOf s'.udg s'.cg, coefOf n s'.cg s'.A, s2.data⟩ ∧
          Relation.ReflTransGen (Reach E s2.data n) (0, init3 s2) (lid', s') ∧ s'.latent = false) ∨
        (olc E fuel n data = Except.error .index ∧
          ∃ lid' s', Relation.ReflTransGen (Reach E s2.data n) (0, init3 s2) (lid', s') ∧ n ≤ lid' ∧ 2 ≤ s'.udg.length)) := by
  obtain ⟨s1, e1, d1, f1⟩ := phase1_dirs E (n := n) fuel (init n data) hf
  have he1 : Edges n s1.udg := (edges_init n).sub d1.sub
  obtain ⟨s2, e2, d2, dd⟩ := phase2_dirs E hn fuel s1 (lt_of_le_of_lt d1.sub.length_le hf) he1
  refine ⟨s1, s2, e1, d1, f1, e2, d2, dd, ?_⟩
  have h3 := phase3_reach (E := E) (data := s2.data) (n := n) (E.cov ((List.range n).map s2.data))
    (partialObserved_lt hE s2.udg) fuel 0 (init3 s2) (lt_of_le_of_lt (d2.sub.trans d1.sub).length_le hf) (he1.sub d2.sub)
  have eo : olc E fuel n data = (do
      let r ← phase3 E s2.data (E.cov ((List.range n).map s2.data)) n (partialObserved E n s2.udg) fuel 0 (init3 s2)
      pure ⟨r.2 + n, adjmatOf r.1.udg r.1.cg, coefOf n r.1.cg r.1.A, s2.data⟩) := by
    unfold olc
    rw [e1]
    simp only [Except.bind, bind, e2]
  rw [eo]
  simp only [Bool.false_eq_true, if_false] at h3
  rcases h3 with ⟨s', lid', e, r, f⟩ | ⟨e, lid', s', r, a, b⟩
  · rw [e]
    exact Or.inl ⟨s', lid', rfl, r, f⟩
  · rw [e]
    exact Or.inr ⟨rfl, lid', s', r, a, b⟩

theorem olc_mono (data : Nat → Col) {fuel fuel' : Nat} (hf : olc E fuel n data ≠ Except.error .fuel)
    (hle : fuel ≤ fuel') : olc E fuel' n data = olc E fuel n data := by
  unfold olc at hf ⊢
  cases e1 : phase1 E n fuel ⟨data, pairs (List.range n), []⟩ with
  | error e =>
    rw [e1] at hf
    have : ∀ (k : Nat) (s : St Col), phase1 E n k s ≠ Except.error .fuel → ∃ s', phase1 E n k s = Except.ok s' := by
      intro k
      induction k with
      | zero => intro s h; exact absurd rfl h
      | succ k ih =>
        intro s h
        unfold phase1 at h ⊢
        simp only at h ⊢
        split at h
        · rename_i hc
          rw [if_pos hc]
          exact ih _ h
        · rename_i hc
          rw [if_neg hc]
          exact ⟨_, rfl⟩
    obtain ⟨s', hs⟩ := this fuel ⟨data, pairs (List.range n), []⟩ (by
      rw [e1]
      intro h
      cases h
      exact hf rfl)
    rw [e1] at hs
    cases hs
  | ok s1 =>
    rw [phase1_mono E _ _ _ _ e1 hle]
    rw [e1] at hf
    simp only [Except.bind, bind] at hf ⊢
    have p2 : ∀ (k k' : Nat) (s : St Col), phase2 E n k s ≠ Except.error .fuel → k ≤ k' → phase2 E n k' s = phase2 E n k s := by
      intro k
      induction k with
      | zero => intro _ s h _; exact absurd rfl h
      | succ k ih =>
        intro k' s h hk
        obtain ⟨k', rfl⟩ : ∃ j, k' = j + 1 := ⟨k' - 1, by omega⟩
        unfold phase2 at h ⊢
        cases hp : pass2 E n s with
        | error e => rfl
        | ok r =>
          rw [hp] at h
          simp only [Except.bind, bind] at h ⊢
          split
          · rename_i hc
            rw [if_pos hc] at h
            exact ih _ _ h (by omega)
          · rfl
    rw [p2 fuel fuel' s1 (fun h => by rw [h] at hf; exact hf rfl) hle]
    cases e2 : phase2 E n fuel s1 with
    | error e => rfl
    | ok s2 =>
      rw [e2] at hf
      simp only at hf ⊢
      rw [phase3_mono _ fuel fuel' _ _ (fun h => by rw [h] at hf; exact hf rfl) hle]

end Cdmir.Olc
