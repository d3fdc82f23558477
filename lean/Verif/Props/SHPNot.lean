import Verif.Model.SHPNot
import Verif.Props.EventTable
import Mathlib.Tactic.Linarith
import Mathlib.Tactic.NormNum
import Mathlib.Tactic.Ring

/-! C160: `EM_not_HC` against `EM`, and `get_interval_events`. -/

namespace Cdmir.SHP
open BigOperators

section Record
variable {K : Type} [Field K] {n : Nat}

theorem emStep_eq (fit : Fin n → List (Fin n) → (Fin n → K) → Except Err (Fit K n)) (E : Edges n) : emStep fit E = notStep fit (fun l => l) E := rfl

theorem notStep_hit {fit : Fin n → List (Fin n) → (Fin n → K) → Except Err (Fit K n)} {order : List (Fin n) → List (Fin n)} {E : Edges n}
    {s : Hist K n × K × (Fin n → Fin n → K) × (Fin n → K)} {i : Fin n} {f : Fit K n} (h : s.1.lookup (i, order (parents E i)) = some f) :
    notStep fit order E s i = .ok (s.1, s.2.1 + f.lik, (fun a b => if b = i ∧ a ∈ order (parents E i) then f.alpha a else s.2.2.1 a b),
      fun b => if b = i then f.mu else s.2.2.2 b) := by
  obtain ⟨hist, L, alpha, mu⟩ := s
  simp only at h
  simp only [notStep, h, pure, Except.pure]

theorem notStep_miss {fit : Fin n → List (Fin n) → (Fin n → K) → Except Err (Fit K n)} {order : List (Fin n) → List (Fin n)} {E : Edges n}
    {s : Hist K n × K × (Fin n → Fin n → K) × (Fin n → K)} {i : Fin n} {f : Fit K n} (h : s.1.lookup (i, order (parents E i)) = none)
    (hf : fit i (order (parents E i)) (fun j => s.2.2.1 j i) = .ok f) :
    notStep fit order E s i = .ok (((i, order (parents E i)), f) :: s.1, s.2.1 + f.lik,
      (fun a b => if b = i ∧ a ∈ order (parents E i) then f.alpha a else s.2.2.1 a b), fun b => if b = i then f.mu else s.2.2.2 b) := by
  obtain ⟨hist, L, alpha, mu⟩ := s
  simp only at h hf
  simp only [notStep, h, hf, bind, Except.bind, pure, Except.pure]

/-- A turn that ends used a fit: of the record, or a new one. -/
theorem notStep_cases {fit : Fin n → List (Fin n) → (Fin n → K) → Except Err (Fit K n)} {order : List (Fin n) → List (Fin n)} {E : Edges n}
    {s s' : Hist K n × K × (Fin n → Fin n → K) × (Fin n → K)} {i : Fin n} (e : notStep fit order E s i = .ok s') :
    ∃ f, s.1.lookup (i, order (parents E i)) = some f ∨
      s.1.lookup (i, order (parents E i)) = none ∧ fit i (order (parents E i)) (fun j => s.2.2.1 j i) = .ok f := by
  cases h : s.1.lookup (i, order (parents E i)) with
  | some f => exact ⟨f, Or.inl rfl⟩
  | none =>
    obtain ⟨hist, L, alpha, mu⟩ := s
    simp only at h
    simp only [notStep, h, bind, Except.bind] at e
    split at e
    · exact absurd e (by simp)
    · rename_i f hf
      exact ⟨f, Or.inr ⟨rfl, hf⟩⟩

/-- The source of the fit of type `i` for the record and the coefficients given. -/
def Source (fit : Fin n → List (Fin n) → (Fin n → K) → Except Err (Fit K n)) (order : List (Fin n) → List (Fin n)) (E : Edges n)
    (hist : Hist K n) (alpha : Fin n → Fin n → K) (i : Fin n) (f : Fit K n) : Prop :=
  hist.lookup (i, order (parents E i)) = some f ∨
    hist.lookup (i, order (parents E i)) = none ∧ fit i (order (parents E i)) (fun j => alpha j i) = .ok f

theorem lookup_cons_ne {α β : Type} [BEq α] [LawfulBEq α] {k k' : α} {v : β} {l : List (α × β)} (h : k ≠ k') :
    ((k', v) :: l).lookup k = l.lookup k := by
  have : (k == k') = false := by simpa using h
  simp [List.lookup, this]

omit [Field K] in
theorem source_next {fit : Fin n → List (Fin n) → (Fin n → K) → Except Err (Fit K n)} {order : List (Fin n) → List (Fin n)} {E : Edges n}
    {hist : Hist K n} {alpha : Fin n → Fin n → K} {i k : Fin n} (hk : k ≠ i) {p : List (Fin n)} {f g : Fit K n} (q : List (Fin n)) :
    (Source fit order E (((i, p), g) :: hist) (fun a b => if b = i ∧ a ∈ q then g.alpha a else alpha a b) k f ↔ Source fit order E hist alpha k f) ∧
    (Source fit order E hist (fun a b => if b = i ∧ a ∈ q then g.alpha a else alpha a b) k f ↔ Source fit order E hist alpha k f) := by
  have h1 : (k, order (parents E k)) ≠ (i, p) := fun h => hk (Prod.ext_iff.1 h).1
  have h2 : (fun j => if k = i ∧ j ∈ q then g.alpha j else alpha j k) = fun j => alpha j k := by
    funext j
    rw [if_neg fun h => hk h.1]
  constructor
  · simp only [Source, lookup_cons_ne h1, h2]
  · simp only [Source, h2]

/-- The whole loop over event types, from the sources of the fits. -/
theorem fold_run {fit : Fin n → List (Fin n) → (Fin n → K) → Except Err (Fit K n)} {order : List (Fin n) → List (Fin n)} {E : Edges n}
    {l : List (Fin n)} (hl : l.Nodup) {f : Fin n → Fit K n} {s : Hist K n × K × (Fin n → Fin n → K) × (Fin n → K)}
    (hs : ∀ i ∈ l, Source fit order E s.1 s.2.2.1 i (f i)) :
    ∃ s', l.foldlM (notStep fit order E) s = .ok s' ∧ s'.2.1 = s.2.1 + (l.map fun i => (f i).lik).sum ∧
      (∀ a b, s'.2.2.1 a b = if b ∈ l ∧ a ∈ order (parents E b) then (f b).alpha a else s.2.2.1 a b) ∧
      (∀ b, s'.2.2.2 b = if b ∈ l then (f b).mu else s.2.2.2 b) ∧
      (∀ i ∈ l, s'.1.lookup (i, order (parents E i)) = some (f i)) ∧
      (∀ k, (∀ i ∈ l, k ≠ (i, order (parents E i))) → s'.1.lookup k = s.1.lookup k) ∧
      ((∀ i ∈ l, s.1.lookup (i, order (parents E i)) = some (f i)) → s'.1 = s.1) := by
  induction l generalizing s with
  | nil => exact ⟨s, rfl, by simp, by simp, by simp, by simp, by simp, by simp⟩
  | cons i l ih =>
    obtain ⟨hil, hl⟩ := List.nodup_cons.1 hl
    have hi := hs i (List.mem_cons_self ..)
    have key : ∀ h', (h' = s.1 ∧ s.1.lookup (i, order (parents E i)) = some (f i) ∨
        h' = ((i, order (parents E i)), f i) :: s.1 ∧ s.1.lookup (i, order (parents E i)) = none) →
        notStep fit order E s i = .ok (h', s.2.1 + (f i).lik, (fun a b => if b = i ∧ a ∈ order (parents E i) then (f i).alpha a else s.2.2.1 a b),
          fun b => if b = i then (f i).mu else s.2.2.2 b) →
        ∃ s', (i :: l).foldlM (notStep fit order E) s = .ok s' ∧ s'.2.1 = s.2.1 + ((i :: l).map fun i => (f i).lik).sum ∧
          (∀ a b, s'.2.2.1 a b = if b ∈ i :: l ∧ a ∈ order (parents E b) then (f b).alpha a else s.2.2.1 a b) ∧
          (∀ b, s'.2.2.2 b = if b ∈ i :: l then (f b).mu else s.2.2.2 b) ∧
          (∀ k ∈ i :: l, s'.1.lookup (k, order (parents E k)) = some (f k)) ∧
          (∀ k, (∀ i' ∈ i :: l, k ≠ (i', order (parents E i'))) → s'.1.lookup k = s.1.lookup k) ∧
          ((∀ k ∈ i :: l, s.1.lookup (k, order (parents E k)) = some (f k)) → s'.1 = s.1) := by
      intro h' hh he
      have hne : ∀ k ∈ l, k ≠ i := fun k hk h => hil (h ▸ hk)
      have hlook : ∀ k, k ≠ (i, order (parents E i)) → h'.lookup k = s.1.lookup k := by
        intro k hk
        rcases hh with ⟨h1, -⟩ | ⟨h1, -⟩
        · rw [h1]
        · rw [h1, lookup_cons_ne hk]
      have hself : h'.lookup (i, order (parents E i)) = some (f i) := by
        rcases hh with ⟨h1, h2⟩ | ⟨h1, -⟩
        · rw [h1, h2]
        · rw [h1]; simp [List.lookup]
      obtain ⟨s', e1, e2, e3, e4, e5, e6, e7⟩ := ih hl (s := (h', s.2.1 + (f i).lik, (fun a b => if b = i ∧ a ∈ order (parents E i) then (f i).alpha a else s.2.2.1 a b),
          fun b => if b = i then (f i).mu else s.2.2.2 b)) (fun k hk => by
        rcases hh with ⟨h1, -⟩ | ⟨h1, -⟩
        · simp only [h1]
          exact (source_next (p := order (parents E i)) (hne k hk) _).2.2 (hs k (List.mem_cons_of_mem _ hk))
        · simp only [h1]
          exact (source_next (hne k hk) _).1.2 (hs k (List.mem_cons_of_mem _ hk)))
      refine ⟨s', ?_, ?_, ?_, ?_, ?_, ?_, ?_⟩
      · rw [List.foldlM_cons, he]
        exact e1
      · rw [e2, List.map_cons, List.sum_cons]
        ring
      · intro a b
        rw [e3]
        simp only [List.mem_cons]
        by_cases hb : b = i
        · subst hb
          simp [hil]
        · simp [hb]
      · intro b
        rw [e4]
        simp only [List.mem_cons]
        by_cases hb : b = i
        · subst hb
          simp [hil]
        · simp [hb]
      · intro k hk
        rcases List.mem_cons.1 hk with rfl | hk
        · rw [e6 (k, order (parents E k)) fun i' hi' h => by
            have h' : k = i' := (Prod.ext_iff.1 h).1
            exact hil (h' ▸ hi')]
          exact hself
        · exact e5 k hk
      · intro k hk
        rw [e6 k fun i' hi' => hk i' (List.mem_cons_of_mem _ hi')]
        exact hlook k (hk i (List.mem_cons_self ..))
      · intro hall
        have hself' := hall i (List.mem_cons_self ..)
        have h1 : h' = s.1 := by
          rcases hh with ⟨h1, -⟩ | ⟨-, h2⟩
          · exact h1
          · rw [hself'] at h2
            exact absurd h2 (by simp)
        rw [e7 fun k hk => by simp only [h1]; exact hall k (List.mem_cons_of_mem _ hk)]
        exact h1
    rcases hi with h | ⟨h, hf⟩
    · exact key _ (Or.inl ⟨rfl, h⟩) (notStep_hit h)
    · exact key _ (Or.inr ⟨rfl, h⟩) (notStep_miss h hf)

/-- Conversely a run that ends had a source for every fit. -/
theorem fold_source {fit : Fin n → List (Fin n) → (Fin n → K) → Except Err (Fit K n)} {order : List (Fin n) → List (Fin n)} {E : Edges n}
    {l : List (Fin n)} (hl : l.Nodup) {s s' : Hist K n × K × (Fin n → Fin n → K) × (Fin n → K)}
    (e : l.foldlM (notStep fit order E) s = .ok s') : ∃ f : Fin n → Fit K n, ∀ i ∈ l, Source fit order E s.1 s.2.2.1 i (f i) := by
  induction l generalizing s with
  | nil => exact ⟨fun _ => ⟨0, fun _ => 0, 0⟩, by simp⟩
  | cons i l ih =>
    obtain ⟨hil, hl⟩ := List.nodup_cons.1 hl
    rw [List.foldlM_cons] at e
    cases h : notStep fit order E s i with
    | error x => rw [h] at e; exact absurd e (by simp [bind, Except.bind])
    | ok s1 =>
      rw [h] at e
      simp only [bind, Except.bind] at e
      obtain ⟨g, hg⟩ := notStep_cases h
      obtain ⟨f, hf⟩ := ih hl e
      refine ⟨fun k => if k = i then g else f k, fun k hk => ?_⟩
      by_cases hki : k = i
      · subst hki
        simp only [if_true]
        exact hg
      · simp only [if_neg hki]
        have := hf k ((List.mem_cons.1 hk).resolve_left hki)
        rcases hg with h' | ⟨h', hf'⟩
        · rw [notStep_hit h'] at h
          cases h
          exact (source_next (p := order (parents E i)) hki _).2.1 this
        · rw [notStep_miss h' hf'] at h
          cases h
          exact (source_next hki _).1.1 this

theorem sum_finRange (f : Fin n → K) : ((List.finRange n).map f).sum = ∑ i, f i := by
  rw [← List.sum_toFinset _ (List.nodup_finRange n)]
  congr 1
  ext; simp

/-- `EM_not_HC` from the sources of its fits. -/
theorem emNot_run {fit : Fin n → List (Fin n) → (Fin n → K) → Except Err (Fit K n)} {order : List (Fin n) → List (Fin n)}
    (ho : ∀ l, (order l).Perm l) {draw : Nat → Fin n → Fin n → K} {penalty : Nat → K} {E : Edges n} {o : Obj K n} {f : Fin n → Fit K n}
    (hs : ∀ i, Source fit order E o.hist (fun j i => if E j i then draw o.draws j i else 0) i (f i)) :
    ∃ r o', emNot fit order draw penalty E o = .ok (r, o') ∧ r.lik = some ((∑ i, (f i).lik) - penalty (edgeSum E)) ∧
      (∀ a b, r.alpha a b = if E a b then (f b).alpha a else 0) ∧ (∀ b, r.mu b = (f b).mu) ∧ o'.draws = o.draws + 1 ∧
      (∀ i, o'.hist.lookup (i, order (parents E i)) = some (f i)) ∧
      (∀ k, (∀ i, k ≠ (i, order (parents E i))) → o'.hist.lookup k = o.hist.lookup k) ∧
      ((∀ i, o.hist.lookup (i, order (parents E i)) = some (f i)) → o'.hist = o.hist) := by
  obtain ⟨s', e1, e2, e3, e4, e5, e6, e7⟩ := fold_run (List.nodup_finRange n) (f := f)
    (s := (o.hist, 0, (fun j i => if E j i then draw o.draws j i else 0), fun _ => 1)) fun i _ => hs i
  obtain ⟨h', L', a', m'⟩ := s'
  refine ⟨⟨some (L' - penalty (edgeSum E)), a', m'⟩, ⟨h', o.draws + 1⟩, ?_, ?_, ?_, ?_, rfl, fun i => e5 i (by simp), ?_, ?_⟩
  · simp only [emNot, e1, bind, Except.bind, pure, Except.pure]
  · simp only at e2
    rw [e2, sum_finRange, zero_add]
  · intro a b
    have := e3 a b
    simp only [List.mem_finRange, true_and, (ho _).mem_iff, mem_parents] at this
    refine this.trans ?_
    split
    · rfl
    · rfl
  · intro b
    have := e4 b
    simpa using this
  · exact fun k hk => e6 k fun i _ => hk i
  · exact fun h => e7 fun i _ => h i

theorem emNot_source {fit : Fin n → List (Fin n) → (Fin n → K) → Except Err (Fit K n)} {order : List (Fin n) → List (Fin n)}
    {draw : Nat → Fin n → Fin n → K} {penalty : Nat → K} {E : Edges n} {o : Obj K n} {x : Result K n × Obj K n}
    (e : emNot fit order draw penalty E o = .ok x) :
    ∃ f : Fin n → Fit K n, ∀ i, Source fit order E o.hist (fun j i => if E j i then draw o.draws j i else 0) i (f i) := by
  simp only [emNot, bind, Except.bind] at e
  split at e
  · exact absurd e (by simp)
  · rename_i s' h
    obtain ⟨f, hf⟩ := fold_source (List.nodup_finRange n) h
    exact ⟨f, fun i => hf i (by simp)⟩

theorem em_eq {fit : Fin n → List (Fin n) → (Fin n → K) → Except Err (Fit K n)} {acyclic : Edges n → Bool}
    {draw : Nat → Fin n → Fin n → K} {penalty : Nat → K} {E : Edges n} (h : acyclic E = true) (o : Obj K n) :
    em fit acyclic draw penalty E o = emNot fit (fun l => l) draw penalty E o := by
  simp only [em, h, if_true, emStep_eq]
  rfl

/-- C160: what `EM_not_HC` returns from an empty record, for a matrix of edges with or without cycles: the sum of the likelihoods of the
fits less the penalty, the coefficients fitted at the edges and zero elsewhere. For a matrix with a cycle `EM` returns minus infinity and zeros
and makes no draw, whatever the fits are. -/
theorem c160_result {fit : Fin n → List (Fin n) → (Fin n → K) → Except Err (Fit K n)} {order : List (Fin n) → List (Fin n)}
    (ho : ∀ l, (order l).Perm l) {acyclic : Edges n → Bool} {draw : Nat → Fin n → Fin n → K} {penalty : Nat → K} {E : Edges n} {t : Nat}
    {f : Fin n → Fit K n}
    (hf : ∀ i, fit i (order ((List.finRange n).filter fun j => E j i)) (fun j => if E j i then draw t j i else 0) = .ok (f i)) :
    (∃ r o', emNot fit order draw penalty E ⟨[], t⟩ = .ok (r, o') ∧ o'.draws = t + 1 ∧
      r.lik = some ((∑ i, (f i).lik) - penalty (Finset.univ.filter fun p : Fin n × Fin n => E p.2 p.1 = true).card) ∧
      (∀ a b, r.alpha a b = if E a b then (f b).alpha a else 0) ∧ ∀ b, r.mu b = (f b).mu) ∧
    (acyclic E = false → ∀ fit', ∃ r, em fit' acyclic draw penalty E ⟨[], t⟩ = .ok (r, ⟨[], t⟩) ∧ r.lik = none ∧ ∀ a b, r.alpha a b = 0) := by
  constructor
  · obtain ⟨r, o', h1, h2, h3, h4, h5, -⟩ := emNot_run (penalty := penalty) (o := ⟨[], t⟩) ho fun i => Or.inr ⟨rfl, hf i⟩
    rw [edgeSum_card] at h2
    exact ⟨r, o', h1, h5, h2, h3, h4⟩
  · intro h fit'
    exact ⟨_, by simp only [em, h, Bool.false_eq_true, if_false]; rfl, rfl, fun _ _ => rfl⟩

/-- The matrix the tests pass, with two event types: each influences the other. -/
example : ∃ r o', emNot (fun i _ a => .ok ⟨(i.val : ℚ), a, 2⟩) (fun l => l) (fun _ _ _ => 1 / 2) (fun k => k) (fun a b : Fin 2 => a != b) ⟨[], 0⟩ = .ok (r, o') ∧
    r.lik = some (-1) ∧ r.alpha 0 1 = 1 / 2 ∧ r.alpha 1 0 = 1 / 2 := by
  obtain ⟨⟨r, o', h1, -, h2, h3, -⟩, -⟩ := c160_result (fit := fun i _ a => .ok ⟨(i.val : ℚ), a, 2⟩) (draw := fun _ _ _ => 1 / 2) (penalty := fun k => k)
    (E := fun a b : Fin 2 => a != b) (t := 0) (fun l => List.Perm.refl l) (acyclic := fun _ => false) (fun i => rfl)
  refine ⟨r, o', h1, ?_, ?_, ?_⟩
  · rw [h2, show (Finset.univ.filter fun p : Fin 2 × Fin 2 => (p.2 != p.1) = true).card = 2 from by decide]
    simp [Fin.sum_univ_two]
    norm_num
  · rw [h3]; simp
  · rw [h3]; simp

/-- C160: the two share one record. After `EM` on a matrix without cycles, `EM_not_HC` on the same matrix uses for an event type the fit of `EM`
exactly if the set of its parents is read in increasing order; for another order it fits again from a new draw. -/
theorem c160_record {fit fit' : Fin n → List (Fin n) → (Fin n → K) → Except Err (Fit K n)} {order : List (Fin n) → List (Fin n)}
    (ho : ∀ l, (order l).Perm l) {acyclic : Edges n → Bool} {draw : Nat → Fin n → Fin n → K} {penalty penalty' : Nat → K} {E : Edges n} {t : Nat}
    (hE : acyclic E = true) {r : Result K n} {o : Obj K n} (e : em fit acyclic draw penalty E ⟨[], t⟩ = .ok (r, o)) {f : Fin n → Fit K n}
    (hf : ∀ i, order ((List.finRange n).filter fun j => E j i) ≠ ((List.finRange n).filter fun j => E j i) →
      fit' i (order ((List.finRange n).filter fun j => E j i)) (fun j => if E j i then draw (t + 1) j i else 0) = .ok (f i)) :
    ∃ r' o', emNot fit' order draw penalty' E o = .ok (r', o') ∧
      (∀ i, order ((List.finRange n).filter fun j => E j i) = ((List.finRange n).filter fun j => E j i) →
        (∀ j, r'.alpha j i = r.alpha j i) ∧ r'.mu i = r.mu i) ∧
      (∀ i, order ((List.finRange n).filter fun j => E j i) ≠ ((List.finRange n).filter fun j => E j i) →
        (∀ j, r'.alpha j i = if E j i then (f i).alpha j else 0) ∧ r'.mu i = (f i).mu) ∧
      ((∀ i, order ((List.finRange n).filter fun j => E j i) = ((List.finRange n).filter fun j => E j i)) →
        ∃ L, r.lik = some (L - penalty (edgeSum E)) ∧ r'.lik = some (L - penalty' (edgeSum E)) ∧ o'.hist = o.hist) := by
  rw [em_eq hE] at e
  obtain ⟨g, hg⟩ := emNot_source e
  obtain ⟨r1, o1, h1, h2, h3, h4, h5, h6, h7, -⟩ := emNot_run (penalty := penalty) (fun l => List.Perm.refl l) hg
  rw [e] at h1
  cases h1
  classical
  have hsrc : ∀ i, Source fit' order E o.hist (fun j i => if E j i then draw o.draws j i else 0) i
      (if order (parents E i) = parents E i then g i else f i) := by
    intro i
    by_cases h : order (parents E i) = parents E i
    · rw [if_pos h]
      exact Or.inl (by rw [h]; exact h6 i)
    · rw [if_neg h]
      refine Or.inr ⟨?_, ?_⟩
      · rw [h7]
        · rfl
        · intro k hk
          have hki : i = k := (Prod.ext_iff.1 hk).1
          subst hki
          exact h (Prod.ext_iff.1 hk).2
      · rw [h5]
        exact hf i h
  obtain ⟨r', o', k1, k2, k3, k4, -, -, -, k8⟩ := emNot_run (penalty := penalty') ho hsrc
  refine ⟨r', o', k1, ?_, ?_, ?_⟩
  · intro i hi
    have hi' : order (parents E i) = parents E i := hi
    refine ⟨fun j => ?_, ?_⟩
    · rw [k3, h3, if_pos hi']
    · rw [k4, h4, if_pos hi']
  · intro i hi
    have hi' : ¬ order (parents E i) = parents E i := hi
    refine ⟨fun j => ?_, ?_⟩
    · rw [k3, if_neg hi']
    · rw [k4, if_neg hi']
  · intro hall
    have hall' : ∀ i, order (parents E i) = parents E i := hall
    refine ⟨∑ i, (g i).lik, h2, ?_, ?_⟩
    · rw [k2]
      simp only [hall', if_true]
    · apply k8
      intro i
      rw [if_pos (hall' i), hall' i]
      exact h6 i

theorem cpython_perm_aux (l : List (Fin n)) (R : Nat) (x : Fin n) :
    ((List.range R).flatMap fun r => l.filter fun x => x.val % 8 == r).count x = if x.val % 8 < R then l.count x else 0 := by
  induction R with
  | zero => simp
  | succ R ih =>
    rw [List.range_succ, List.flatMap_append, List.count_append, ih]
    simp only [List.flatMap_cons, List.flatMap_nil, List.append_nil]
    by_cases h : x.val % 8 = R
    · rw [if_neg (by omega), if_pos (by omega), zero_add, List.count_filter (by simp [h])]
    · have h0 : (l.filter fun x => x.val % 8 == R).count x = 0 := List.count_eq_zero_of_not_mem fun hm => h (by simpa using (List.mem_filter.1 hm).2)
      rw [h0, add_zero]
      by_cases h' : x.val % 8 < R
      · rw [if_pos h', if_pos (by omega)]
      · rw [if_neg h', if_neg (by omega)]

theorem cpython_perm (l : List (Fin n)) : (cpython l).Perm l := by
  rw [List.perm_iff_count]
  intro x
  unfold cpython
  rw [cpython_perm_aux, if_pos (Nat.mod_lt _ (by norm_num))]

/-- The graph in which types 1 and 8 influence type 0. -/
def oneEight : Edges 9 := fun a b => b == 0 && (a == 1 || a == 8)

/-- C160: "a structure that was scored is scored again from the record" is false between the two: with nine event types, type 0 influenced by
types 1 and 8, the set {1, 8} is read as 8, 1. -/
theorem c160_record_false : cpython ((List.finRange 9).filter fun j => oneEight j 0) = [8, 1] ∧
    ∃ (fit : Fin 9 → List (Fin 9) → (Fin 9 → ℚ) → Except Err (Fit ℚ 9)) (draw : Nat → Fin 9 → Fin 9 → ℚ) (r r' : Result ℚ 9) (o o' : Obj ℚ 9),
      em fit (fun _ => true) draw (fun _ => 0) oneEight ⟨[], 0⟩ = .ok (r, o) ∧ emNot fit cpython draw (fun _ => 0) oneEight o = .ok (r', o') ∧
      r.alpha 1 0 ≠ r'.alpha 1 0 := by
  have horder : cpython ((List.finRange 9).filter fun j => oneEight j 0) = [8, 1] := by decide +kernel
  refine ⟨horder, fun _ _ a => .ok ⟨0, a, 1⟩, fun t _ _ => t + 1, ?_⟩
  obtain ⟨r, o, h1, -, h2, h3, -, -⟩ := emNot_run (fit := fun _ _ a => .ok ⟨0, a, 1⟩) (draw := fun t _ _ => (t : ℚ) + 1) (penalty := fun _ => 0)
    (E := oneEight) (o := ⟨[], 0⟩) (fun l => List.Perm.refl l) fun i => Or.inr ⟨rfl, rfl⟩
  have h1' := h1
  rw [← em_eq (acyclic := fun _ => true) rfl] at h1
  obtain ⟨r', o', k1, -, k3, -⟩ := c160_record (fit' := fun _ _ a => .ok ⟨0, a, 1⟩) (penalty' := fun _ => 0) cpython_perm rfl h1 fun i _ => rfl
  refine ⟨r, r', o, o', h1, k1, ?_⟩
  have h0 := (k3 0 (by rw [horder]; decide +kernel)).1 1
  rw [h0, h2]
  simp [oneEight]

/-- C160: on a matrix without cycles and an empty record the two agree, if the sets are read in increasing order and the fits of the two agree;
the score differs for AIC by `reg`. -/
theorem c160_agree {fit fit' : Fin n → List (Fin n) → (Fin n → K) → Except Err (Fit K n)} {order : List (Fin n) → List (Fin n)}
    {acyclic : Edges n → Bool} {draw : Nat → Fin n → Fin n → K} {E : Edges n} (hE : acyclic E = true) (o : Obj K n)
    (ho : ∀ i, order ((List.finRange n).filter fun j => E j i) = (List.finRange n).filter fun j => E j i)
    (hf : ∀ i a, fit' i ((List.finRange n).filter fun j => E j i) a = fit i ((List.finRange n).filter fun j => E j i) a) (aic : Bool) (reg logN : K) :
    ∀ r o', em fit acyclic draw (penaltyOf false aic n reg logN) E o = .ok (r, o') →
      ∃ L r', emNot fit' order draw (penaltyOf true aic n reg logN) E o = .ok (r', o') ∧ r.lik = some L ∧
        r'.lik = some (L - if aic then ((n : K) + (Finset.univ.filter fun p : Fin n × Fin n => E p.2 p.1 = true).card) * (reg - 1) else 0) ∧
        r'.alpha = r.alpha ∧ r'.mu = r.mu := by
  intro r o' e
  rw [em_eq hE] at e
  have hstep : notStep fit' order E = notStep fit (fun l => l) E := by
    funext s i
    have h1 : order (parents E i) = parents E i := ho i
    have h2 : ∀ a, fit' i (parents E i) a = fit i (parents E i) a := hf i
    simp only [notStep, h1, h2]
  simp only [emNot, bind, Except.bind] at e ⊢
  rw [hstep]
  split at e
  · exact absurd e (by simp)
  · rename_i s' h
    simp only [pure, Except.pure, Except.ok.injEq, Prod.mk.injEq] at e
    obtain ⟨e1, e2⟩ := e
    subst e1
    refine ⟨_, ⟨some (s'.2.1 - penaltyOf true aic n reg logN (edgeSum E)), s'.2.2.1, s'.2.2.2⟩, by rw [e2]; rfl, rfl, ?_, rfl, rfl⟩
    simp only [penaltyOf, edgeSum_card, if_true, Bool.false_eq_true, if_false, Option.some.injEq]
    cases aic
    · simp
    · simp only [if_true]
      push_cast
      ring

end Record

section Stop
variable {K : Type} [Field K] [LinearOrder K] {m n : Nat}

/-- The coefficients and the base rate after `k` updates. -/
def after (D : Data K m n) (S : Fin m → Fin n → K) (I : Fin n → K) (i : Fin n) (pa : List (Fin n)) (dt : K) (alpha : Fin n → K) (mu : K) :
    Nat → (Fin n → K) × K
  | 0 => (alpha, mu)
  | k + 1 => let s := after D S I i pa dt alpha mu k; (alphaStep D S I i pa dt s.1 s.2, muStep D S i s.1 s.2)

theorem after_succ (D : Data K m n) (S : Fin m → Fin n → K) (I : Fin n → K) (i : Fin n) (pa : List (Fin n)) (dt : K) (alpha : Fin n → K) (mu : K) (k : Nat) :
    after D S I i pa dt alpha mu (k + 1) = after D S I i pa dt (alphaStep D S I i pa dt alpha mu) (muStep D S i alpha mu) k := by
  induction k with
  | zero => rfl
  | succ k ih =>
    rw [after, ih]
    rfl

/-- The likelihood after `k` updates. -/
def likAfter (D : Data K m n) (log : K → K) (S : Fin m → Fin n → K) (I : Fin n → K) (i : Fin n) (pa : List (Fin n)) (dt : K) (alpha : Fin n → K) (mu : K)
    (k : Nat) : K :=
  logLik D log S i (after D S I i pa dt alpha mu k).1 (after D S I i pa dt alpha mu k).2

theorem likAfter_succ (D : Data K m n) (log : K → K) (S : Fin m → Fin n → K) (I : Fin n → K) (i : Fin n) (pa : List (Fin n)) (dt : K) (alpha : Fin n → K) (mu : K)
    (k : Nat) : likAfter D log S I i pa dt alpha mu (k + 1) =
      likAfter D log S I i pa dt (alphaStep D S I i pa dt alpha mu) (muStep D S i alpha mu) k := by
  simp only [likAfter, after_succ]

theorem le_stop {D : Data K m n} {dt : K} (hdt : D.dt = some dt) {log : K → K} {S : Fin m → Fin n → K} {I : Fin n → K} {i : Fin n} {pa : List (Fin n)}
    {fuel : Nat} {l : K} {alpha : Fin n → K} {mu : K} {f : Fit K n} :
    fitLoopLe D log S I i pa fuel (some l) alpha mu = .ok f ↔ ∃ k < fuel,
      (∀ j < k, 17 / 2000 < likAfter D log S I i pa dt alpha mu j - (if j = 0 then l else likAfter D log S I i pa dt alpha mu (j - 1))) ∧
      likAfter D log S I i pa dt alpha mu k - (if k = 0 then l else likAfter D log S I i pa dt alpha mu (k - 1)) ≤ 17 / 2000 ∧
      f = ⟨likAfter D log S I i pa dt alpha mu k, (after D S I i pa dt alpha mu k).1, (after D S I i pa dt alpha mu k).2⟩ := by
  induction fuel generalizing l alpha mu with
  | zero => simp [fitLoopLe, throw, throwThe, MonadExceptOf.throw]
  | succ fuel ih =>
    simp only [fitLoopLe, hdt, decide_eq_true_eq]
    by_cases h : logLik D log S i alpha mu - l ≤ 17 / 2000
    · rw [if_pos h]
      simp only [pure, Except.pure, Except.ok.injEq]
      constructor
      · rintro rfl
        exact ⟨0, Nat.succ_pos _, by simp, by simpa [likAfter, after] using h, rfl⟩
      · rintro ⟨k, -, h1, h2, h3⟩
        rcases Nat.eq_zero_or_pos k with rfl | hk
        · exact h3.symm
        · have := h1 0 hk
          simp only [if_true, likAfter, after] at this
          exact absurd h (not_le.2 this)
    · rw [if_neg h, ih]
      constructor
      · rintro ⟨k, h0, h1, h2, h3⟩
        refine ⟨k + 1, by omega, ?_, ?_, ?_⟩
        · intro j hj
          cases j with
          | zero => simpa [likAfter, after] using h
          | succ j =>
            have := h1 j (by omega)
            rw [likAfter_succ, if_neg (Nat.succ_ne_zero _), Nat.add_sub_cancel]
            cases j with
            | zero => simpa [likAfter, after] using this
            | succ j => simpa [likAfter_succ] using this
        · rw [likAfter_succ, if_neg (Nat.succ_ne_zero _), Nat.add_sub_cancel]
          cases k with
          | zero => simpa [likAfter, after] using h2
          | succ k => simpa [likAfter_succ] using h2
        · rw [h3, likAfter_succ, after_succ]
      · rintro ⟨k, h0, h1, h2, h3⟩
        cases k with
        | zero =>
          exact absurd (by simpa [likAfter, after] using h2) h
        | succ k =>
          refine ⟨k, by omega, ?_, ?_, ?_⟩
          · intro j hj
            have := h1 (j + 1) (by omega)
            rw [likAfter_succ, if_neg (Nat.succ_ne_zero _), Nat.add_sub_cancel] at this
            cases j with
            | zero => simpa [likAfter, after] using this
            | succ j => simpa [likAfter_succ] using this
          · rw [likAfter_succ, if_neg (Nat.succ_ne_zero _), Nat.add_sub_cancel] at h2
            cases k with
            | zero => simpa [likAfter, after] using h2
            | succ k => simpa [likAfter_succ] using h2
          · rw [h3, likAfter_succ, after_succ]

/-- C160: with a time interval a fit of `EM_not_HC` is the first iterate, after the first, whose gain in likelihood is at most 0.0085. -/
theorem c160_stop {D : Data K m n} {dt : K} (hdt : D.dt = some dt) {log kappa : K → K} {fuel : Nat} {i : Fin n} {pa : List (Fin n)} {alpha : Fin n → K}
    {f : Fit K n} : fitLe D log kappa fuel i pa alpha = .ok f ↔ ∃ k, k + 1 < fuel ∧
      (∀ j < k, 17 / 2000 < likAfter D log (influence D kappa) (integral D kappa) i pa dt alpha 1 (j + 1) -
        likAfter D log (influence D kappa) (integral D kappa) i pa dt alpha 1 j) ∧
      likAfter D log (influence D kappa) (integral D kappa) i pa dt alpha 1 (k + 1) -
        likAfter D log (influence D kappa) (integral D kappa) i pa dt alpha 1 k ≤ 17 / 2000 ∧
      f = ⟨likAfter D log (influence D kappa) (integral D kappa) i pa dt alpha 1 (k + 1),
        (after D (influence D kappa) (integral D kappa) i pa dt alpha 1 (k + 1)).1, (after D (influence D kappa) (integral D kappa) i pa dt alpha 1 (k + 1)).2⟩ := by
  unfold fitLe
  cases fuel with
  | zero => simp [fitLoopLe, throw, throwThe, MonadExceptOf.throw]
  | succ fuel =>
    simp only [fitLoopLe, hdt, Bool.false_eq_true, if_false]
    rw [le_stop hdt]
    have hj : ∀ j, (if j = 0 then logLik D log (influence D kappa) i alpha 1 else
        likAfter D log (influence D kappa) (integral D kappa) i pa dt (alphaStep D (influence D kappa) (integral D kappa) i pa dt alpha 1)
          (muStep D (influence D kappa) i alpha 1) (j - 1)) = likAfter D log (influence D kappa) (integral D kappa) i pa dt alpha 1 j := by
      intro j
      cases j with
      | zero => rfl
      | succ j => rw [if_neg (Nat.succ_ne_zero _), Nat.add_sub_cancel, likAfter_succ]
    simp only [hj]
    simp only [← likAfter_succ, ← after_succ, Nat.add_lt_add_iff_right]

theorem tie_loop {D : Data K m n} {dt : K} (hdt : D.dt = some dt) {log : K → K} {S : Fin m → Fin n → K} {I : Fin n → K} {i : Fin n} {pa : List (Fin n)}
    {fuel : Nat} {l : K} {alpha : Fin n → K} {mu : K} (h0 : likAfter D log S I i pa dt alpha mu 0 - l ≠ 17 / 2000)
    (h : ∀ k, likAfter D log S I i pa dt alpha mu (k + 1) - likAfter D log S I i pa dt alpha mu k ≠ 17 / 2000) :
    fitLoopLe D log S I i pa fuel (some l) alpha mu = fitLoop D log S I i pa fuel (some l) alpha mu := by
  induction fuel generalizing l alpha mu with
  | zero => rfl
  | succ fuel ih =>
    have h0' : logLik D log S i alpha mu - l ≠ 17 / 2000 := h0
    simp only [fitLoopLe, fitLoop, hdt, decide_eq_true_eq]
    rw [ih (by simpa [likAfter, after] using h 0) fun k => by simpa only [← likAfter_succ] using h (k + 1)]
    by_cases hlt : logLik D log S i alpha mu - l < 17 / 2000
    · rw [if_pos hlt.le, if_pos hlt]
    · rw [if_neg fun hle => hlt (lt_of_le_of_ne hle h0'), if_neg hlt]

/-- C160: the fits of the two are the same unless some gain is exactly 0.0085; `EM_not_HC` then stops there and `EM` goes on. -/
theorem c160_tie {D : Data K m n} {dt : K} (hdt : D.dt = some dt) {log kappa : K → K} (fuel : Nat) {i : Fin n} {pa : List (Fin n)} {alpha : Fin n → K}
    (h : ∀ k, likAfter D log (influence D kappa) (integral D kappa) i pa dt alpha 1 (k + 1) -
      likAfter D log (influence D kappa) (integral D kappa) i pa dt alpha 1 k ≠ 17 / 2000) :
    fitLe D log kappa fuel i pa alpha = fit D log kappa fuel i pa alpha := by
  unfold fitLe fit
  cases fuel with
  | zero => rfl
  | succ fuel =>
    simp only [fitLoopLe, fitLoop, hdt, Bool.false_eq_true, if_false]
    exact tie_loop hdt (by simpa [likAfter, after] using h 0) fun k => by simpa only [← likAfter_succ] using h (k + 1)

/-- One event, no parents, `T = 3`: the base rate is 1/3 from the first update on. -/
def single : Data ℚ 1 1 := ⟨fun _ => 0, fun _ => 0, fun _ _ => 1, fun _ => 3, 3, 1, some 1⟩

theorem single_after (S : Fin 1 → Fin 1 → ℚ) (I : Fin 1 → ℚ) (k : Nat) : after single S I 0 [] 1 (fun _ => 0) 1 (k + 1) = (fun _ => 0, 1 / 3) := by
  induction k with
  | zero =>
    simp [after, muStep, single, rate]
    rfl
  | succ k ih =>
    rw [after, ih]
    simp [muStep, single, rate]
    rfl

example (kappa : ℚ → ℚ) (fuel : Nat) : fitLe single (fun _ => 0) kappa fuel 0 [] (fun _ => 0) = fit single (fun _ => 0) kappa fuel 0 [] (fun _ => 0) := by
  refine c160_tie rfl fuel fun k => ?_
  cases k with
  | zero => simp only [likAfter, single_after]; simp [after, logLik, single]; norm_num
  | succ k => simp only [likAfter, single_after]; norm_num

example (kappa : ℚ → ℚ) : fitLe single (fun _ => 0) kappa 3 0 [] (fun _ => 0) = .ok ⟨-1, fun _ => 0, 1 / 3⟩ := by
  refine (c160_stop rfl).2 ⟨1, by norm_num, ?_, ?_, ?_⟩
  · intro j hj
    obtain rfl : j = 0 := by omega
    simp only [likAfter, single_after]; simp [after, logLik, single]; norm_num
  · simp only [likAfter, single_after]; norm_num
  · simp only [likAfter, single_after]; simp [logLik, single]

end Stop

section Events
variable {K : Type} [Field K] [LinearOrder K] [IsStrictOrderedRing K] [FloorRing K]

omit [IsStrictOrderedRing K] in
/-- The caller's table after `get_interval_events`. -/
theorem events_table (d : K) (E : List (Event K)) : (intervalEvents d E).2 = E.map fun e => ⟨e.seq, bin (some d) e.time, e.type⟩ := rfl

theorem sum_indicator {S : List Nat} (hS : S.Nodup) {a : Nat} (ha : a ∈ S) (x : Nat) : (S.map fun j => if a = j then x else 0).sum = x := by
  induction S with
  | nil => exact absurd ha (by simp)
  | cons b S ih =>
    obtain ⟨h1, h2⟩ := List.nodup_cons.1 hS
    rw [List.map_cons, List.sum_cons]
    by_cases hab : a = b
    · subst hab
      rw [if_pos rfl]
      have : (S.map fun j => if a = j then x else 0) = S.map fun _ => 0 :=
        List.map_congr_left fun j hj => if_neg fun h : a = j => h1 (h ▸ hj)
      rw [this]
      simp
    · rw [if_neg hab, ih h2 ((List.mem_cons.1 ha).resolve_left hab), zero_add]

omit [Field K] [LinearOrder K] [IsStrictOrderedRing K] [FloorRing K] in
theorem sum_cells {S N : List Nat} (hS : S.Nodup) (hN : N.Nodup) (E : List (Event K)) (h1 : ∀ e ∈ E, e.seq ∈ S) (h2 : ∀ e ∈ E, e.type ∈ N) :
    (S.map fun j => (N.map fun i => (E.filter fun e => e.type == i && e.seq == j).length).sum).sum = E.length := by
  induction E with
  | nil => simp
  | cons e E ih =>
    have := ih (fun x hx => h1 x (List.mem_cons_of_mem _ hx)) fun x hx => h2 x (List.mem_cons_of_mem _ hx)
    have hcell : ∀ j i, ((e :: E).filter fun e => e.type == i && e.seq == j).length =
        (if e.seq = j then if e.type = i then 1 else 0 else 0) + (E.filter fun e => e.type == i && e.seq == j).length := by
      intro j i
      rw [List.filter_cons]
      by_cases hi : e.type = i
      · by_cases hj : e.seq = j
        · simp [hi, hj, add_comm]
        · simp [hi, hj]
      · simp [hi]
    simp only [hcell, List.sum_map_add, this, List.length_cons]
    have hrow : ∀ j, (N.map fun i => if e.seq = j then if e.type = i then 1 else 0 else 0).sum = if e.seq = j then 1 else 0 := by
      intro j
      by_cases hj : e.seq = j
      · simp only [hj, if_true]
        exact sum_indicator hN (h2 e (List.mem_cons_self ..)) 1
      · simp [hj]
    simp only [hrow]
    rw [sum_indicator hS (h1 e (List.mem_cons_self ..)) 1, add_comm]

omit [IsStrictOrderedRing K] in
/-- C160: the lists of `get_interval_events`: one for each sequence, in the order of the first events, and in it one for each type that occurs, in
increasing order, with the rounded times of the events of that sequence and type in the order of the table. Every event is in one list. -/
theorem c160_events (d : K) (E : List (Event K)) : ∃ S : List Nat, S.Nodup ∧ (∀ j, j ∈ S ↔ ∃ e ∈ E, e.seq = j) ∧
    (∀ e es, E = e :: es → S.head? = some e.seq) ∧
    (intervalEvents d E).1 = S.map (fun j => ((E.map fun e => e.type).dedup.insertionSort (· ≤ ·)).map fun i =>
      (E.filter fun e => e.type == i && e.seq == j).map fun e => bin (some d) e.time) ∧
    ((intervalEvents d E).1.map fun L => (L.map List.length).sum).sum = E.length := by
  have hmap : (E.map fun e => ({ e with time := (trunc (e.time / d) : K) * d } : Event K)).map Event.seq = E.map Event.seq := by
    rw [List.map_map]; rfl
  have hnames : names (E.map fun e => ({ e with time := (trunc (e.time / d) : K) * d } : Event K)) = names E := by
    simp only [names, List.map_map]; rfl
  have hval : (intervalEvents d E).1 = (E.map Event.seq).reverse.dedup.reverse.map (fun j => (names E).map fun i =>
      (E.filter fun e => e.type == i && e.seq == j).map fun e => bin (some d) e.time) := by
    simp only [intervalEvents, hmap, hnames, List.filter_map, List.map_map]
    rfl
  have hnd : ((E.map Event.seq).reverse.dedup.reverse).Nodup := List.nodup_reverse.2 (List.nodup_dedup _)
  have hmem : ∀ j, j ∈ (E.map Event.seq).reverse.dedup.reverse ↔ ∃ e ∈ E, e.seq = j := by simp
  refine ⟨(E.map Event.seq).reverse.dedup.reverse, hnd, hmem, ?_, hval, ?_⟩
  · rintro e es rfl
    rw [List.head?_reverse, List.map_cons, List.reverse_cons]
    generalize (es.map Event.seq).reverse = l
    induction l with
    | nil => simp
    | cons a l ih =>
      rw [List.cons_append]
      by_cases h : a ∈ l ++ [e.seq]
      · rw [List.dedup_cons_of_mem h]
        exact ih
      · rw [List.dedup_cons_of_notMem h, List.getLast?_cons, ih]
        rfl
  · rw [hval, List.map_map]
    have : ((fun L : List (List K) => (L.map List.length).sum) ∘ fun j => (names E).map fun i =>
        (E.filter fun e => e.type == i && e.seq == j).map fun e => bin (some d) e.time) =
        fun j => ((names E).map fun i => (E.filter fun e => e.type == i && e.seq == j).length).sum := by
      funext j
      simp [List.map_map, Function.comp_def]
    rw [this]
    exact sum_cells hnd names_nodup E (fun e he => (hmem _).2 ⟨e, he, rfl⟩) fun e he => mem_names.2 ⟨e, he, rfl⟩

theorem trunc_int (k : Int) : trunc (k : K) = k := by
  unfold trunc
  split <;> simp

/-- C160: the call writes the rounded times into the caller's table; it leaves it as it was exactly if every time is a multiple of the interval, and a
second call with the same interval changes nothing. -/
theorem c160_caller {d : K} (hd : d ≠ 0) (E : List (Event K)) :
    ((intervalEvents d E).2 = E ↔ ∀ e ∈ E, ∃ k : Int, e.time = k * d) ∧ intervalEvents d (intervalEvents d E).2 = intervalEvents d E := by
  have hid : ∀ t : K, bin (some d) (bin (some d) t) = bin (some d) t := by
    intro t
    simp only [bin]
    rw [mul_div_assoc, div_self hd, mul_one, trunc_int]
  have hfix : ∀ t : K, bin (some d) t = t ↔ ∃ k : Int, t = k * d := by
    intro t
    constructor
    · intro h
      exact ⟨trunc (t / d), h.symm⟩
    · rintro ⟨k, rfl⟩
      simp only [bin]
      rw [mul_div_assoc, div_self hd, mul_one, trunc_int]
  constructor
  · rw [events_table]
    simp only [← hfix]
    induction E with
    | nil => simp
    | cons e E ih =>
      simp only [List.map_cons, List.cons.injEq, List.forall_mem_cons, ih]
      constructor
      · rintro ⟨h1, h2⟩
        exact ⟨congrArg Event.time h1, h2⟩
      · rintro ⟨h1, h2⟩
        rw [h1]
        exact ⟨rfl, h2⟩
  · have hE : ((E.map fun e => ({ e with time := (trunc (e.time / d) : K) * d } : Event K)).map fun e => ({ e with time := (trunc (e.time / d) : K) * d } : Event K)) =
        E.map fun e => ({ e with time := (trunc (e.time / d) : K) * d } : Event K) := by
      rw [List.map_map]
      apply List.map_congr_left
      intro e _
      have := hid e.time
      simp only [bin] at this
      simp only [Function.comp_def, this]
    simp only [intervalEvents, hE]

/-- C160: "the intervals of a table do not depend on earlier calls" is false: an event at time 5 is at 4 with intervals of length 2, but at 2 if the
table was used with intervals of length 3 before. -/
theorem c160_caller_false : (intervalEvents (2 : ℚ) [⟨0, 5, 0⟩]).1 = [[[4]]] ∧
    (intervalEvents (2 : ℚ) (intervalEvents 3 [⟨0, 5, 0⟩]).2).1 = [[[2]]] := by
  have h1 : trunc ((5 : ℚ) / 2) = 2 := by rw [trunc, if_pos (by norm_num), Int.floor_eq_iff]; norm_num
  have h2 : trunc ((5 : ℚ) / 3) = 1 := by rw [trunc, if_pos (by norm_num), Int.floor_eq_iff]; norm_num
  have h3 : trunc ((3 : ℚ) / 2) = 1 := by rw [trunc, if_pos (by norm_num), Int.floor_eq_iff]; norm_num
  constructor
  · simp [intervalEvents, names, h1]; norm_num
  · simp [intervalEvents, names, h2, h3]

/-- Two sequences and three types: the second sequence comes first in the table. -/
example : (intervalEvents (2 : ℚ) [⟨7, 4, 1⟩, ⟨3, 2, 0⟩, ⟨7, 6, 1⟩]).1 = [[[], [4, 6]], [[2], []]] := by
  have h1 : trunc ((4 : ℚ) / 2) = 2 := by rw [trunc, if_pos (by norm_num), Int.floor_eq_iff]; norm_num
  have h2 : trunc ((6 : ℚ) / 2) = 3 := by rw [trunc, if_pos (by norm_num), Int.floor_eq_iff]; norm_num
  simp [intervalEvents, names, List.filter_cons, trunc]
  norm_num

end Events

end Cdmir.SHP
