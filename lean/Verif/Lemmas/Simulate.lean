import Verif.Model.Simulate
import Verif.Spec.DSep
import Mathlib.LinearAlgebra.Matrix.ToLinearEquiv
import Mathlib.Data.List.Perm.Basic

/-! Filling the columns of a table in an order where no column needs a later one: proof devices for the simulators. -/

namespace Cdmir.Sim
open BigOperators

set_option linter.unusedSectionVars false

/-- The answers of networkx for one matrix: `is_directed_acyclic_graph` says whether the graph has no cycle; if it has none, the
order contains every node once and no node before one of its predecessors. -/
structure Nx.Right {n : Nat} {K : Type} [Zero K] (nx : Nx n K) (W : Matrix (Fin n) (Fin n) K) : Prop where
  dag : nx.isDag W = true ↔ Spec.Acyclic (fun i j => W i j ≠ 0)
  perm : Spec.Acyclic (fun i j => W i j ≠ 0) → (nx.topo W).Perm (List.finRange n)
  order : Spec.Acyclic (fun i j => W i j ≠ 0) → (nx.topo W).Pairwise (fun a b => W b a = 0)

section
variable {K : Type} [CommRing K] {N n : Nat}

theorem setCol_other (X : Tab N n K) {j c : Fin n} (h : c ≠ j) (v : Fin N → K) (s : Fin N) : setCol X j v s c = X s c := by
  simp [setCol, h]

theorem setCol_self (X : Tab N n K) (j : Fin n) (v : Fin N → K) (s : Fin N) : setCol X j v s j = v s := by
  simp [setCol]

theorem foldlM_spec {P : Fin n → Fin n → Prop} (irr : ∀ i, ¬ P i i) {value : Fin n → Tab N n K → Except Err (Fin N → K)}
    (dep : ∀ j X Y, (∀ i, P i j → ∀ s, X s i = Y s i) → value j X = value j Y) :
    ∀ (l : List (Fin n)) (X0 X : Tab N n K), l.Nodup → l.Pairwise (fun a b => ¬ P b a) →
      l.foldlM (fun X j => do let v ← value j X; pure (setCol X j v)) X0 = Except.ok X →
      (∀ c, c ∉ l → ∀ s, X s c = X0 s c) ∧ ∀ j ∈ l, value j X = Except.ok (fun s => X s j) := by
  intro l
  induction l with
  | nil =>
    intro X0 X _ _ h
    simp only [List.foldlM_nil] at h
    cases h
    simp
  | cons j l ih =>
    intro X0 X nd pw h
    rw [List.foldlM_cons] at h
    cases hv : value j X0 with
    | error e => rw [hv] at h; cases h
    | ok v =>
      rw [hv] at h
      obtain ⟨h1, h2⟩ := ih (setCol X0 j v) X (List.nodup_cons.1 nd).2 (List.pairwise_cons.1 pw).2 h
      refine ⟨fun c hc s => ?_, fun k hk => ?_⟩
      · rw [h1 c (fun q => hc (List.mem_cons_of_mem _ q)) s]
        exact setCol_other X0 (fun q => hc (by rw [q]; exact List.mem_cons_self)) v s
      · rcases List.mem_cons.1 hk with rfl | hk
        · have e : value k X = value k X0 := by
            refine dep k X X0 fun i hi s => ?_
            have ik : i ≠ k := fun q => irr k (q ▸ hi)
            have il : i ∉ l := fun q => (List.pairwise_cons.1 pw).1 i q hi
            rw [h1 i il s, setCol_other X0 ik]
          rw [e, hv]
          congr 1
          funext s
          rw [h1 k (List.nodup_cons.1 nd).1 s, setCol_self]
        · exact h2 k hk

theorem foldlM_ok {value : Fin n → Tab N n K → Except Err (Fin N → K)} {f : Fin n → Tab N n K → Fin N → K}
    (hv : ∀ j X, value j X = Except.ok (f j X)) (l : List (Fin n)) (X0 : Tab N n K) :
    ∃ X, l.foldlM (fun X j => do let v ← value j X; pure (setCol X j v)) X0 = Except.ok X := by
  induction l generalizing X0 with
  | nil => exact ⟨X0, rfl⟩
  | cons j l ih =>
    rw [List.foldlM_cons, hv]
    exact ih _

theorem foldlM_congr {v w : Fin n → Tab N n K → Except Err (Fin N → K)} (h : ∀ j X, v j X = w j X) (l : List (Fin n)) :
    fillM l v = fillM l w := by
  have : v = w := by funext j X; exact h j X
  rw [this]

/-- The simulated table satisfies every column equation. -/
theorem fillM_spec {P : Fin n → Fin n → Prop} (irr : ∀ i, ¬ P i i) {value : Fin n → Tab N n K → Except Err (Fin N → K)}
    (dep : ∀ j X Y, (∀ i, P i j → ∀ s, X s i = Y s i) → value j X = value j Y) {l : List (Fin n)}
    (perm : l.Perm (List.finRange n)) (pw : l.Pairwise (fun a b => ¬ P b a)) {X : Tab N n K}
    (h : fillM l value = Except.ok X) (j : Fin n) : value j X = Except.ok (fun s => X s j) :=
  (foldlM_spec irr dep l _ X (perm.nodup_iff.2 (List.nodup_finRange n)) pw h).2 j (perm.mem_iff.2 (List.mem_finRange j))

/-- Two tables that satisfy every column equation are equal. -/
theorem fixed_unique {P : Fin n → Fin n → Prop} (irr : ∀ i, ¬ P i i) {value : Fin n → Tab N n K → Except Err (Fin N → K)}
    (dep : ∀ j X Y, (∀ i, P i j → ∀ s, X s i = Y s i) → value j X = value j Y) {l : List (Fin n)}
    (perm : l.Perm (List.finRange n)) (pw : l.Pairwise (fun a b => ¬ P b a)) {X Y : Tab N n K}
    (hX : ∀ j, value j X = Except.ok (fun s => X s j)) (hY : ∀ j, value j Y = Except.ok (fun s => Y s j)) : X = Y := by
  have key : ∀ l1 l2, l = l1 ++ l2 → ∀ j ∈ l1, ∀ s, X s j = Y s j := by
    intro l1
    induction l1 using List.reverseRecOn with
    | nil => intro _ _ j hj; simp at hj
    | append_singleton l1 k ih =>
      intro l2 e j hj s
      have e' : l = l1 ++ ([k] ++ l2) := by rw [e, List.append_assoc]
      have prev := ih ([k] ++ l2) e'
      rcases List.mem_append.1 hj with hj | hj
      · exact prev j hj s
      · obtain rfl : j = k := by simpa using hj
        have : value j X = value j Y := by
          refine dep j X Y fun i hi s => prev i ?_ s
          have hl : i ∈ l := perm.mem_iff.2 (List.mem_finRange i)
          rw [e'] at hl pw
          rcases List.mem_append.1 hl with q | q
          · exact q
          · exfalso
            have pw2 := (List.pairwise_append.1 pw).2.1
            rcases List.mem_cons.1 q with q | q
            · exact irr j (q ▸ hi)
            · exact (List.pairwise_cons.1 pw2).1 i q hi
        rw [hX, hY] at this
        exact congrFun (Except.ok.inj this) s
  funext s j
  exact key l [] (by simp) j (perm.mem_iff.2 (List.mem_finRange j)) s

variable [DecidableEq K]

theorem mem_preds {W : Matrix (Fin n) (Fin n) K} {i j : Fin n} : i ∈ preds W j ↔ W i j ≠ 0 := by
  simp [preds]

theorem sum_filter_map {ι : Type} (p : ι → Bool) (f : ι → K) (h : ∀ i, p i = false → f i = 0) (l : List ι) :
    ((l.filter p).map f).sum = (l.map f).sum := by
  induction l with
  | nil => rfl
  | cons a l ih =>
    cases q : p a with
    | true => simp [q, ih]
    | false => simp [q, ih, h a q]

/-- `parents @ weights` is the sum over all nodes. -/
theorem lin_eq (W : Matrix (Fin n) (Fin n) K) (X : Tab N n K) (j : Fin n) (s : Fin N) :
    lin W X j s = ∑ i, X s i * W i j := by
  unfold lin preds
  rw [sum_filter_map _ _ (fun i hi => by
    have : W i j = 0 := by simpa using hi
    rw [this, mul_zero]), ← List.ofFn_eq_map, List.sum_ofFn]

/-- `1 - W` is invertible when the graph of `W` has an order. -/
theorem det_ne_zero {K : Type} [Field K] {n : Nat} {W : Matrix (Fin n) (Fin n) K} (irr : ∀ i, W i i = 0) {l : List (Fin n)}
    (perm : l.Perm (List.finRange n)) (pw : l.Pairwise (fun a b => W b a = 0)) : (1 - W).det ≠ 0 := by
  intro h
  obtain ⟨v, hv, e⟩ := Matrix.exists_vecMul_eq_zero_iff.2 h
  apply hv
  have e2 : ∀ j, v j = ∑ i, v i * W i j := by
    intro j
    have := congrFun e j
    rw [Matrix.vecMul_sub, Matrix.vecMul_one] at this
    simpa [sub_eq_zero, Matrix.vecMul, dotProduct] using this
  have := fixed_unique (N := 1) (P := fun i j => W i j ≠ 0) (fun i => by simp [irr])
    (value := fun j X => Except.ok (fun s => ∑ i, X s i * W i j))
    (fun j X Y q => by
      congr 1; funext s; refine Finset.sum_congr rfl fun i _ => ?_
      by_cases w : W i j = 0
      · simp [w]
      · rw [q i w s]) perm (by simpa using pw) (X := fun _ => v) (Y := fun _ _ => 0)
    (fun j => by congr 1; funext _; exact (e2 j).symm) (fun j => by simp)
  exact congrFun this 0

end
end Cdmir.Sim
