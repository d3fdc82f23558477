import Verif.Model.SHP
import Verif.Spec.DSep
import Mathlib.Algebra.Order.Field.Basic
import Mathlib.Algebra.BigOperators.Group.List.Basic
import Mathlib.Algebra.BigOperators.Group.Finset.Basic
import Mathlib.Order.WithBot
import Mathlib.Data.Fintype.Pi
import Mathlib.Data.Fintype.Card
import Mathlib.Data.Fintype.Basic
import Mathlib.Tactic.Linarith
import Mathlib.Tactic.Ring

/-! The record, the passes and the loop of `Hill_Climb`: proof devices. -/

namespace Cdmir.SHP
open BigOperators

variable {K : Type} [Field K] [LinearOrder K] [IsStrictOrderedRing K] {n : Nat}

/-- The second record keeps every entry of the first. -/
def Ext (h h' : Hist K n) : Prop := ∀ k f, h.lookup k = some f → h'.lookup k = some f

omit [Field K] [LinearOrder K] [IsStrictOrderedRing K] in
theorem Ext.refl (h : Hist K n) : Ext h h := fun _ _ e => e
omit [Field K] [LinearOrder K] [IsStrictOrderedRing K] in
theorem Ext.trans {a b c : Hist K n} (h : Ext a b) (h' : Ext b c) : Ext a c := fun k f e => h' k f (h k f e)

/-- Every entry is a fit from one of the draws. -/
def Good (fit : Fin n → List (Fin n) → (Fin n → K) → Except Err (Fit K n)) (draw : Nat → Fin n → Fin n → K) (h : Hist K n) : Prop :=
  ∀ i pa f, h.lookup (i, pa) = some f → ∃ t, fit i pa (fun j => if j ∈ pa then draw t j i else 0) = .ok f

theorem mem_parents {E : Edges n} {i j : Fin n} : j ∈ parents E i ↔ E j i = true := by
  unfold parents
  simp

omit [Field K] [LinearOrder K] [IsStrictOrderedRing K] in
theorem lookup_cons {h : Hist K n} {k k' : Fin n × List (Fin n)} {f : Fit K n} :
    List.lookup k' ((k, f) :: h) = if k' = k then some f else h.lookup k' := by
  rw [List.lookup_cons]
  by_cases e : k' = k
  · subst e; simp
  · rw [if_neg e, beq_false_of_ne e]

omit [LinearOrder K] [IsStrictOrderedRing K] in
/-- The loop over event types. -/
theorem fold_spec {fit : Fin n → List (Fin n) → (Fin n → K) → Except Err (Fit K n)} {E : Edges n} {is : List (Fin n)}
    (hn : is.Nodup) {h h' : Hist K n} {L L' : K} {al al' : Fin n → Fin n → K} {mu mu' : Fin n → K}
    (e : is.foldlM (emStep fit E) (h, L, al, mu) = .ok (h', L', al', mu')) :
    Ext h h' ∧ (∀ i pa f, h'.lookup (i, pa) = some f → h.lookup (i, pa) = some f ∨
        (i ∈ is ∧ pa = parents E i ∧ fit i pa (fun j => al j i) = .ok f)) ∧
      ∃ g : Fin n → Fit K n, (∀ i ∈ is, h'.lookup (i, parents E i) = some (g i)) ∧ L' = L + (is.map fun i => (g i).lik).sum ∧
        (∀ a b, al' a b = if b ∈ is ∧ E a b = true then (g b).alpha a else al a b) ∧
        ∀ b, mu' b = if b ∈ is then (g b).mu else mu b := by
  induction is generalizing h L al mu with
  | nil =>
    simp only [List.foldlM_nil, pure, Except.pure, Except.ok.injEq, Prod.mk.injEq] at e
    obtain ⟨rfl, rfl, rfl, rfl⟩ := e
    exact ⟨Ext.refl _, fun i pa f q => .inl q, fun _ => ⟨0, fun _ => 0, 0⟩, by simp, by simp, by simp, by simp⟩
  | cons i is ih =>
    obtain ⟨hi, hn⟩ := List.nodup_cons.1 hn
    rw [List.foldlM_cons] at e
    have key : ∃ f h1, (h.lookup (i, parents E i) = some f ∧ h1 = h ∨
        h.lookup (i, parents E i) = none ∧ h1 = ((i, parents E i), f) :: h ∧ fit i (parents E i) (fun j => al j i) = .ok f) ∧
        is.foldlM (emStep fit E) (h1, L + f.lik, (fun a b => if b = i ∧ a ∈ parents E i then f.alpha a else al a b),
          fun b => if b = i then f.mu else mu b) = .ok (h', L', al', mu') := by
      unfold emStep at e
      simp only at e
      cases k : h.lookup (i, parents E i) with
      | some f => rw [k] at e; exact ⟨f, h, .inl ⟨rfl, rfl⟩, e⟩
      | none =>
        rw [k] at e
        simp only at e
        cases q : fit i (parents E i) (fun j => al j i) with
        | error x => rw [q] at e; exact absurd e (by simp [bind, Except.bind])
        | ok f => rw [q] at e; exact ⟨f, _, .inr ⟨rfl, rfl, rfl⟩, e⟩
    obtain ⟨f, h1, hf, e⟩ := key
    obtain ⟨x1, x2, g, g1, g2, g3, g4⟩ := ih hn e
    have hx : Ext h h1 := by
      rcases hf with ⟨-, rfl⟩ | ⟨k, rfl, -⟩
      · exact Ext.refl _
      · intro k' f' e'
        rw [lookup_cons, if_neg]
        · exact e'
        · rintro rfl; rw [k] at e'; cases e'
    have hf' : h1.lookup (i, parents E i) = some f := by
      rcases hf with ⟨k, rfl⟩ | ⟨k, rfl, -⟩
      · exact k
      · rw [lookup_cons, if_pos rfl]
    refine ⟨hx.trans x1, ?_, fun b => if b = i then f else g b, ?_, ?_, ?_, ?_⟩
    · intro b pa f' e'
      rcases x2 b pa f' e' with q | ⟨q1, q2, q3⟩
      · rcases hf with ⟨-, rfl⟩ | ⟨k, rfl, hk⟩
        · exact .inl q
        · rw [lookup_cons] at q
          split at q
          · rename_i w
            simp only [Prod.mk.injEq] at w
            obtain ⟨rfl, rfl⟩ := w
            simp only [Option.some.injEq] at q
            subst q
            exact .inr ⟨List.mem_cons_self, rfl, hk⟩
          · exact .inl q
      · refine .inr ⟨List.mem_cons_of_mem _ q1, q2, ?_⟩
        have : b ≠ i := by rintro rfl; exact hi q1
        simpa only [this, false_and, if_false] using q3
    · intro b hb
      rcases List.mem_cons.1 hb with rfl | hb'
      · simp only [if_true]; exact x1 _ _ hf'
      · have : b ≠ i := by rintro rfl; exact hi hb'
        simp only [this, if_false]; exact g1 b hb'
    · rw [g2, List.map_cons, List.sum_cons, add_assoc]
      simp only [if_true]
      congr 3
      refine List.map_congr_left fun b hb => ?_
      have : b ≠ i := by rintro rfl; exact hi hb
      simp only [this, if_false]
    · intro a b
      rw [g3]
      by_cases hb : b = i
      · subst hb
        simp only [hi, false_and, if_false, true_and, mem_parents, List.mem_cons_self, if_true]
      · simp only [hb, false_and, if_false, List.mem_cons, false_or]
    · intro b
      rw [g4]
      by_cases hb : b = i
      · subst hb
        simp [hi]
      · simp [hb]

/-- The fit ends for starting coefficients between 0 and 1. -/
def Total (fit : Fin n → List (Fin n) → (Fin n → K) → Except Err (Fit K n)) : Prop :=
  ∀ i pa a, (∀ j, 0 ≤ a j ∧ a j ≤ 1) → ∃ f, fit i pa a = .ok f

omit [IsStrictOrderedRing K] in
theorem fold_total {fit : Fin n → List (Fin n) → (Fin n → K) → Except Err (Fit K n)} (ht : Total fit)
    {E : Edges n} {is : List (Fin n)} (hn : is.Nodup) {s : Hist K n × K × (Fin n → Fin n → K) × (Fin n → K)}
    (hs : ∀ i ∈ is, ∀ j, 0 ≤ s.2.2.1 j i ∧ s.2.2.1 j i ≤ 1) : ∃ s', is.foldlM (emStep fit E) s = .ok s' := by
  induction is generalizing s with
  | nil => exact ⟨s, rfl⟩
  | cons i is ih =>
    obtain ⟨hi, hn⟩ := List.nodup_cons.1 hn
    rw [List.foldlM_cons]
    have : ∃ s1, emStep fit E s i = .ok s1 ∧ ∀ b, b ≠ i → ∀ a, s1.2.2.1 a b = s.2.2.1 a b := by
      unfold emStep
      simp only
      cases s.1.lookup (i, parents E i) with
      | some f => exact ⟨_, rfl, fun b hb a => by simp [hb]⟩
      | none =>
        obtain ⟨f, hf⟩ := ht i (parents E i) (fun j => s.2.2.1 j i) (hs i List.mem_cons_self)
        simp only
        rw [hf]
        exact ⟨_, rfl, fun b hb a => by simp [hb]⟩
    obtain ⟨s1, e, h1⟩ := this
    rw [e]
    refine ih hn fun b hb a => ?_
    have : b ≠ i := by rintro rfl; exact hi hb
    rw [h1 b this]
    exact hs b (List.mem_cons_of_mem _ hb) a

variable (acyclic : Edges n → Bool) (penalty : Nat → K)

/-- The triple `r` is what the record says about the matrix `E`. -/
def Current (h : Hist K n) (E : Edges n) (r : Result K n) : Prop :=
  (acyclic E = false ∧ r = ⟨none, fun _ _ => 0, fun _ => 0⟩) ∨
  (acyclic E = true ∧ ∃ g : Fin n → Fit K n, (∀ i, h.lookup (i, parents E i) = some (g i)) ∧
    r = ⟨some ((∑ i, (g i).lik) - penalty (edgeSum E)), fun a b => if E a b then (g b).alpha a else 0, fun b => (g b).mu⟩)

variable {acyclic penalty}

omit [LinearOrder K] [IsStrictOrderedRing K] in
theorem Current.mono {h h' : Hist K n} (x : Ext h h') {E : Edges n} {r : Result K n} (c : Current acyclic penalty h E r) :
    Current acyclic penalty h' E r := by
  rcases c with c | ⟨c, g, hg, e⟩
  · exact .inl c
  · exact .inr ⟨c, g, fun i => x _ _ (hg i), e⟩

omit [LinearOrder K] [IsStrictOrderedRing K] in
theorem Current.unique {h : Hist K n} {E : Edges n} {r r' : Result K n} (c : Current acyclic penalty h E r)
    (c' : Current acyclic penalty h E r') : r = r' := by
  rcases c with ⟨c, rfl⟩ | ⟨c, g, hg, rfl⟩ <;> rcases c' with ⟨c', rfl⟩ | ⟨c', g', hg', rfl⟩
  · rfl
  · rw [c] at c'; cases c'
  · rw [c] at c'; cases c'
  · have : g = g' := funext fun i => Option.some.inj ((hg i).symm.trans (hg' i))
    rw [this]

omit [LinearOrder K] [IsStrictOrderedRing K] in
theorem em_spec {fit : Fin n → List (Fin n) → (Fin n → K) → Except Err (Fit K n)} {draw : Nat → Fin n → Fin n → K} {E : Edges n}
    {o o' : Obj K n} {r : Result K n} (e : em fit acyclic draw penalty E o = .ok (r, o')) :
    Ext o.hist o'.hist ∧ (Good fit draw o.hist → Good fit draw o'.hist) ∧ Current acyclic penalty o'.hist E r := by
  unfold em at e
  split at e
  · rename_i ha
    simp only at e
    cases k : (List.finRange n).foldlM (emStep fit E) (o.hist, (0 : K), (fun j i => if E j i then draw o.draws j i else 0), fun _ => 1) with
    | error x => rw [k] at e; exact absurd e (by simp [bind, Except.bind])
    | ok s =>
      obtain ⟨h', L, al, mu⟩ := s
      rw [k] at e
      simp only [bind, Except.bind, pure, Except.pure, Except.ok.injEq, Prod.mk.injEq] at e
      obtain ⟨rfl, rfl⟩ := e
      obtain ⟨x1, x2, g, g1, g2, g3, g4⟩ := fold_spec (List.nodup_finRange n) k
      refine ⟨x1, fun hg i pa f q => ?_, .inr ⟨ha, g, fun i => g1 i (List.mem_finRange i), ?_⟩⟩
      · rcases x2 i pa f q with q | ⟨-, rfl, q⟩
        · exact hg i pa f q
        · refine ⟨o.draws, ?_⟩
          rw [← q]
          congr 1
          funext j
          simp only [mem_parents]
      · congr 1
        · rw [g2, zero_add, ← List.ofFn_eq_map, List.sum_ofFn]
        · funext a b
          rw [g3]
          simp only [List.mem_finRange, true_and]
          split <;> rfl
        · funext b
          rw [g4, if_pos (List.mem_finRange b)]
  · rename_i ha
    simp only [pure, Except.pure, Except.ok.injEq, Prod.mk.injEq] at e
    obtain ⟨rfl, rfl⟩ := e
    exact ⟨Ext.refl _, id, .inl ⟨by simpa using ha, rfl⟩⟩

theorem em_total {fit : Fin n → List (Fin n) → (Fin n → K) → Except Err (Fit K n)} (ht : Total fit)
    {draw : Nat → Fin n → Fin n → K} (hd : ∀ t j i, 0 ≤ draw t j i ∧ draw t j i ≤ 1) (E : Edges n) (o : Obj K n) : ∃ s, em fit acyclic draw penalty E o = .ok s := by
  unfold em
  split
  · obtain ⟨s, e⟩ := fold_total ht (E := E) (List.nodup_finRange n)
      (s := (o.hist, (0 : K), (fun j i => if E j i then draw o.draws j i else 0), fun _ => 1)) (fun i _ j => by
        simp only
        split
        · exact hd _ _ _
        · exact ⟨le_rfl, zero_le_one⟩)
    simp only
    rw [e]
    exact ⟨_, rfl⟩
  · exact ⟨_, rfl⟩

/-- Minus infinity as the least element. -/
def val : Option K → WithBot K
  | none => ⊥
  | some a => a

omit [Field K] [IsStrictOrderedRing K] in
theorem better_iff {a b : Option K} : better a b = true ↔ val b < val a := by
  cases a with
  | none => cases b <;> simp [better, val]
  | some a =>
    cases b with
    | none => simp only [better, val, true_iff]; exact WithBot.bot_lt_coe a
    | some b => simp only [better, val, decide_eq_true_eq, gt_iff_lt]; exact WithBot.coe_lt_coe.symm

omit [IsStrictOrderedRing K] in
theorem pass_spec {fit : Fin n → List (Fin n) → (Fin n → K) → Except Err (Fit K n)} {draw : Nat → Fin n → Fin n → K}
    {Ns : List (Edges n)} {r r' : Result K n} {E E' : Edges n} {st st' : Bool} {o o' : Obj K n}
    (c : Current acyclic penalty o.hist E r)
    (e : pass (em fit acyclic draw penalty) Ns r E st o = .ok (r', E', st', o')) :
    Ext o.hist o'.hist ∧ (Good fit draw o.hist → Good fit draw o'.hist) ∧ Current acyclic penalty o'.hist E' r' ∧
      val r.lik ≤ val r'.lik ∧
      (∀ N ∈ Ns, ∃ rN, Current acyclic penalty o'.hist N rN ∧ val rN.lik ≤ val r'.lik) ∧
      ((st' = st ∧ r' = r ∧ E' = E) ∨ (st' = false ∧ val r.lik < val r'.lik ∧ E' ∈ Ns)) := by
  induction Ns generalizing r E st o with
  | nil =>
    simp only [pass, pure, Except.pure, Except.ok.injEq, Prod.mk.injEq] at e
    obtain ⟨rfl, rfl, rfl, rfl⟩ := e
    exact ⟨Ext.refl _, id, c, le_rfl, by simp, .inl ⟨rfl, rfl, rfl⟩⟩
  | cons N Ns ih =>
    unfold pass at e
    cases k : em fit acyclic draw penalty N o with
    | error x => rw [k] at e; exact absurd e (by simp [bind, Except.bind])
    | ok q =>
      obtain ⟨rN, o1⟩ := q
      rw [k] at e
      simp only [bind, Except.bind] at e
      obtain ⟨x1, x2, x3⟩ := em_spec k
      split at e
      · rename_i hb
        rw [better_iff] at hb
        obtain ⟨y1, y2, y3, y4, y5, y6⟩ := ih x3 e
        refine ⟨x1.trans y1, y2 ∘ x2, y3, hb.le.trans y4, ?_, .inr ?_⟩
        · intro M hM
          rcases List.mem_cons.1 hM with rfl | hM
          · exact ⟨rN, x3.mono y1, y4⟩
          · exact y5 M hM
        · rcases y6 with ⟨rfl, rfl, rfl⟩ | ⟨h1, h2, h3⟩
          · exact ⟨rfl, hb, List.mem_cons_self⟩
          · exact ⟨h1, hb.trans h2, List.mem_cons_of_mem _ h3⟩
      · rename_i hb
        rw [better_iff, not_lt] at hb
        obtain ⟨y1, y2, y3, y4, y5, y6⟩ := ih (c.mono x1) e
        refine ⟨x1.trans y1, y2 ∘ x2, y3, y4, ?_, ?_⟩
        · intro M hM
          rcases List.mem_cons.1 hM with rfl | hM
          · exact ⟨rN, x3.mono y1, hb.trans y4⟩
          · exact y5 M hM
        · rcases y6 with y | ⟨h1, h2, h3⟩
          · exact .inl y
          · exact .inr ⟨h1, h2, List.mem_cons_of_mem _ h3⟩

theorem pass_total {fit : Fin n → List (Fin n) → (Fin n → K) → Except Err (Fit K n)} (ht : Total fit)
    {draw : Nat → Fin n → Fin n → K} (hd : ∀ t j i, 0 ≤ draw t j i ∧ draw t j i ≤ 1) (Ns : List (Edges n)) (r : Result K n) (E : Edges n) (st : Bool) (o : Obj K n) :
    ∃ s, pass (em fit acyclic draw penalty) Ns r E st o = .ok s := by
  induction Ns generalizing r E st o with
  | nil => exact ⟨_, rfl⟩
  | cons N Ns ih =>
    unfold pass
    obtain ⟨⟨r', o'⟩, e⟩ := em_total ht (acyclic := acyclic) (penalty := penalty) hd N o
    rw [e]
    simp only [bind, Except.bind]
    split
    · exact ih _ _ _ _
    · exact ih _ _ _ _

omit [IsStrictOrderedRing K] in
/-- What holds when the loop has ended. -/
theorem climb_spec {fit : Fin n → List (Fin n) → (Fin n → K) → Except Err (Fit K n)} {draw : Nat → Fin n → Fin n → K}
    {P : Edges n → Prop} (hP : ∀ E, P E → ∀ N ∈ changes E, P N)
    {fuel : Nat} {r r' : Result K n} {E E' : Edges n} {o o' : Obj K n} (c : Current acyclic penalty o.hist E r) (p : P E)
    (e : climb (em fit acyclic draw penalty) fuel r E o = .ok (r', E', o')) :
    P E' ∧ (Good fit draw o.hist → Good fit draw o'.hist) ∧ Current acyclic penalty o'.hist E' r' ∧
      val r.lik ≤ val r'.lik ∧ ((r' = r ∧ E' = E) ∨ val r.lik < val r'.lik) ∧
      ∀ N ∈ changes E', ∃ rN, Current acyclic penalty o'.hist N rN ∧ val rN.lik ≤ val r'.lik := by
  induction fuel generalizing r E o with
  | zero => exact absurd e (by simp [climb, throw, throwThe, MonadExceptOf.throw])
  | succ fuel ih =>
    unfold climb at e
    cases k : pass (em fit acyclic draw penalty) (changes E) r E true o with
    | error x => rw [k] at e; exact absurd e (by simp [bind, Except.bind])
    | ok q =>
      obtain ⟨r1, E1, st, o1⟩ := q
      rw [k] at e
      simp only [bind, Except.bind] at e
      obtain ⟨y1, y2, y3, y4, y5, y6⟩ := pass_spec c k
      split at e
      · rename_i hs
        simp only [pure, Except.pure, Except.ok.injEq, Prod.mk.injEq] at e
        obtain ⟨rfl, rfl, rfl⟩ := e
        rcases y6 with ⟨-, rfl, rfl⟩ | ⟨h, -⟩
        · exact ⟨p, y2, y3, y4, .inl ⟨rfl, rfl⟩, y5⟩
        · rw [hs] at h; cases h
      · rename_i hs
        rcases y6 with ⟨h, -⟩ | ⟨-, hl, h⟩
        · exact absurd h hs
        · obtain ⟨z0, z1, z2, z3, -, z4⟩ := ih y3 (hP E p _ h) e
          exact ⟨z0, z1 ∘ y2, z2, y4.trans z3, .inr (hl.trans_le z3), z4⟩

open Classical in
/-- The matrices that the record does not place at or below a score. -/
noncomputable def open_ (acyclic : Edges n → Bool) (penalty : Nat → K) (h : Hist K n) (L : WithBot K) : Finset (Edges n) :=
  Finset.univ.filter fun E => ¬ ∃ r, Current acyclic penalty h E r ∧ val r.lik ≤ L

theorem climb_total {fit : Fin n → List (Fin n) → (Fin n → K) → Except Err (Fit K n)} (ht : Total fit)
    {draw : Nat → Fin n → Fin n → K} (hd : ∀ t j i, 0 ≤ draw t j i ∧ draw t j i ≤ 1) {fuel : Nat} {r : Result K n}
    {E : Edges n} {o : Obj K n} (c : Current acyclic penalty o.hist E r) (hf : (open_ acyclic penalty o.hist (val r.lik)).card < fuel) :
    ∃ s, climb (em fit acyclic draw penalty) fuel r E o = .ok s := by
  induction fuel generalizing r E o with
  | zero => exact absurd hf (Nat.not_lt_zero _)
  | succ fuel ih =>
    unfold climb
    obtain ⟨⟨r1, E1, st, o1⟩, e⟩ := pass_total ht (acyclic := acyclic) (penalty := penalty) hd (changes E) r E true o
    rw [e]
    simp only [bind, Except.bind]
    obtain ⟨y1, y2, y3, y4, y5, y6⟩ := pass_spec c e
    split
    · exact ⟨_, rfl⟩
    · rename_i hs
      rcases y6 with ⟨h, -⟩ | ⟨-, hlt, -⟩
      · exact absurd h hs
      · refine ih y3 (Nat.lt_of_lt_of_le (Finset.card_lt_card ?_) (Nat.le_of_lt_succ hf))
        rw [Finset.ssubset_iff_of_subset]
        · refine ⟨E1, ?_, ?_⟩
          · simp only [open_, Finset.mem_filter, Finset.mem_univ, true_and]
            rintro ⟨r2, c2, hle⟩
            have := (c2.mono y1).unique y3
            subst this
            exact absurd hle (not_le.2 hlt)
          · simp only [open_, Finset.mem_filter, Finset.mem_univ, true_and, not_not]
            exact ⟨r1, y3, le_rfl⟩
        · intro M
          simp only [open_, Finset.mem_filter, Finset.mem_univ, true_and]
          rintro h ⟨r2, c2, hle⟩
          exact h ⟨r2, c2.mono y1, hle.trans y4⟩

end Cdmir.SHP
