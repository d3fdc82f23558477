import Verif.Props.NetworkLoop

/-! C131, C135: the layers in terms of the weights as arrays, and what the losses of linear_ent.py average. -/

namespace Cdmir.Net
open BigOperators Finset

/-- An array with two axes in memory order. -/
def flat2 {a b : Nat} (W : Fin a → Fin b → ℝ) : List ℝ := (List.ofFn fun i => List.ofFn (W i)).flatten

/-- An array with three axes in memory order. -/
def flat3 {a b c : Nat} (W : Fin a → Fin b → Fin c → ℝ) : List ℝ := (List.ofFn fun i => flat2 (W i)).flatten

theorem at_flatten {m : Nat} : ∀ (L : List (List ℝ)), (∀ l ∈ L, l.length = m) → ∀ (j : Nat) (hj : j < L.length) (c : Nat), c < m →
    at' L.flatten (j * m + c) = at' L[j] c
  | [], _, j, hj, _, _ => absurd hj (Nat.not_lt_zero _)
  | l :: L, h, 0, _, c, hc => by
    have hl : l.length = m := h l (by simp)
    simp only [at', List.flatten_cons, Nat.zero_mul, Nat.zero_add, List.getElem_cons_zero, List.getD_eq_getElem?_getD]
    rw [List.getElem?_append_left (by omega)]
  | l :: L, h, j + 1, hj, c, hc => by
    have hl : l.length = m := h l (by simp)
    have ih := at_flatten L (fun l hl => h l (by simp [hl])) j (by simpa using hj) c hc
    rw [List.getElem_cons_succ, ← ih]
    simp only [at', List.flatten_cons, List.getD_eq_getElem?_getD]
    rw [List.getElem?_append_right (by rw [hl, Nat.add_mul]; omega)]
    congr 2
    rw [hl, Nat.add_mul]
    omega

theorem flat2_length {a b : Nat} (W : Fin a → Fin b → ℝ) : (flat2 W).length = a * b := by
  simp [flat2, List.length_flatten, List.map_ofFn, Function.comp_def]

theorem at_flat2 {a b : Nat} (W : Fin a → Fin b → ℝ) (i : Fin a) (j : Fin b) : at' (flat2 W) (i * b + j) = W i j := by
  unfold flat2
  rw [at_flatten (m := b) _ (by simp [List.mem_ofFn]) i (by simp) j j.isLt]
  simp [at', List.getD_eq_getElem?_getD]

theorem at_flat3 {a b c : Nat} (W : Fin a → Fin b → Fin c → ℝ) (i : Fin a) (j : Fin b) (k : Fin c) :
    at' (flat3 W) ((i * b + j) * c + k) = W i j k := by
  have hj : (j : Nat) * c + k < b * c := by
    calc (j : Nat) * c + k < j * c + c := by omega
      _ = (j + 1) * c := by ring
      _ ≤ b * c := Nat.mul_le_mul_right _ j.isLt
  unfold flat3
  rw [show ((i : Nat) * b + j) * c + k = i * (b * c) + (j * c + k) by ring,
    at_flatten (m := b * c) _ (by simp [List.mem_ofFn, flat2_length]) i (by simp) _ hj]
  simp only [List.getElem_ofFn]
  exact at_flat2 (W i) j k

/-- C131: a linear layer multiplies by the weight array, and a local layer gives each variable its own array: the values of variable `j` are its
inputs times `W[j]` plus `B[j]`. -/
theorem c131_layers {d m1 m2 : Nat} (x : Nat → ℝ) (A : Fin m2 → Fin m1 → ℝ) (b : Fin m2 → ℝ) (o : Fin m2) (z : Nat → Nat → ℝ)
    (W : Fin d → Fin m1 → Fin m2 → ℝ) (B : Fin d → Fin m2 → ℝ) (j : Fin d) (c : Fin m2) :
    linear m1 (flat2 A) (List.ofFn b) x o = ∑ i : Fin m1, x i * A o i + b o ∧
    localForward m1 m2 (flat3 W) (flat2 B) z j c = ∑ a : Fin m1, z j a * W j a c + B j c := by
  constructor
  · unfold linear
    rw [Finset.sum_range]
    simp only [at_flat2]
    simp [at', List.getD_eq_getElem?_getD]
  · unfold localForward
    rw [Finset.sum_range, at_flat2]
    simp only [at_flat3]

/-- The rows of two samples, one after the other. -/
def stack {n m d : Nat} (A : Matrix (Fin n) (Fin d) ℝ) (B : Matrix (Fin m) (Fin d) ℝ) : Matrix (Fin (n + m)) (Fin d) ℝ :=
  Matrix.of fun r j => Fin.append (fun r => A r j) (fun r => B r j) r

theorem stack_left {n m d : Nat} (A : Matrix (Fin n) (Fin d) ℝ) (B : Matrix (Fin m) (Fin d) ℝ) (r : Fin n) (j : Fin d) :
    stack A B (Fin.castAdd m r) j = A r j := by simp [stack]

theorem stack_right {n m d : Nat} (A : Matrix (Fin n) (Fin d) ℝ) (B : Matrix (Fin m) (Fin d) ℝ) (r : Fin m) (j : Fin d) :
    stack A B (Fin.natAdd n r) j = B r j := by simp [stack]

/-- C135: the squared loss and the stored term are averages over the rows: they add up over two samples with the numbers of rows as weights; if all
rows have the squared error `c`, the loss is `c / 2`, and if all have the squared length `c` the stored term is `c`. -/
theorem c135_average {n m d : Nat} (out target : Matrix (Fin n) (Fin d) ℝ) (out' target' : Matrix (Fin m) (Fin d) ℝ) (p : Lin ℝ)
    (X : Matrix (Fin n) (Fin p.d) ℝ) (X' : Matrix (Fin m) (Fin p.d) ℝ) (c : ℝ) (hn : n ≠ 0) (hm : m ≠ 0) :
    ((n + m : Nat) : ℝ) * squaredLoss (stack out out') (stack target target') = n * squaredLoss out target + m * squaredLoss out' target' ∧
    ((∀ r, ∑ j, (out r j - target r j) ^ 2 = c) → squaredLoss out target = c / 2) ∧
    ((n + m : Nat) : ℝ) * (p.forward (stack X X')).2 = n * (p.forward X).2 + m * (p.forward X').2 ∧
    ((∀ r, ∑ j, X r j ^ 2 = c) → (p.forward X).2 = c) := by
  have hn' : (n : ℝ) ≠ 0 := by exact_mod_cast hn
  have hm' : (m : ℝ) ≠ 0 := by exact_mod_cast hm
  have hs : ((n + m : Nat) : ℝ) ≠ 0 := by exact_mod_cast (by omega : n + m ≠ 0)
  refine ⟨?_, fun h => ?_, ?_, fun h => ?_⟩
  · unfold squaredLoss
    rw [Fin.sum_univ_add]
    simp only [stack_left, stack_right]
    field_simp
  · unfold squaredLoss
    simp only [h, Finset.sum_const, Finset.card_univ, Fintype.card_fin, nsmul_eq_mul]
    field_simp
  · unfold Lin.forward Notears.total Notears.had
    dsimp only
    rw [Fin.sum_univ_add]
    simp only [stack_left, stack_right]
    field_simp
  · unfold Lin.forward Notears.total Notears.had
    dsimp only
    simp only [← sq, h, Finset.sum_const, Finset.card_univ, Fintype.card_fin, nsmul_eq_mul]
    field_simp

section examples

/-- Two variables, two inputs, one output each. -/
example : localForward 2 1 (flat3 (fun j a _ => ![![1, 2], ![3, 4]] j a : Fin 2 → Fin 2 → Fin 1 → ℝ)) (flat2 (fun _ _ => 5 : Fin 2 → Fin 1 → ℝ)) (fun j a => (10 * j + a : ℕ)) 1 0 =
    10 * 3 + 11 * 4 + 5 := by
  have := (c131_layers (d := 2) (m1 := 2) (m2 := 1) (fun _ => 0) (fun _ _ => 0) (fun _ => 0) 0 (fun j a => ((10 * j + a : ℕ) : ℝ))
    (fun j a _ => ![![1, 2], ![3, 4]] j a) (fun _ _ => 5) 1 0).2
  refine this.trans ?_
  simp [Fin.sum_univ_two]
  norm_num

/-- Two rows with the squared error 4. -/
example : squaredLoss (Matrix.of fun _ _ => 1 : Matrix (Fin 2) (Fin 4) ℝ) (Matrix.of fun _ _ => 2) = 2 := by
  rw [(c135_average (n := 2) (m := 2) _ _ (Matrix.of fun _ _ => 1 : Matrix (Fin 2) (Fin 4) ℝ) (Matrix.of fun _ _ => 1) ⟨0, [], []⟩ 0 0 4
    (by norm_num) (by norm_num)).2.1 fun r => by norm_num [Fin.sum_univ_four]]
  norm_num

end examples

end Cdmir.Net
