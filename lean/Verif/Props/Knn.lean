import Verif.Model.Knn
import Mathlib.Algebra.BigOperators.Fin
import Mathlib.Algebra.BigOperators.Field
import Mathlib.Algebra.BigOperators.Intervals
import Mathlib.Algebra.Order.BigOperators.Ring.Finset
import Mathlib.Tactic.Linarith
import Mathlib.Tactic.NormNum
import Mathlib.Tactic.Ring
import Mathlib.Tactic.FieldSimp

/-! C161: the nearest neighbour loss. -/

namespace Cdmir.Knn
open BigOperators

variable {n d : Nat}

section Folds

theorem foldlM_some {β : Type} {F : Option ℝ → β → Except Err (Option ℝ)} {v : β → ℝ} {l : List β}
    (h : ∀ i ∈ l, ∀ a, F (some a) i = .ok (some (a + v i))) (a : ℝ) : l.foldlM F (some a) = .ok (some (a + (l.map v).sum)) := by
  induction l generalizing a with
  | nil => simp [pure, Except.pure]
  | cons i l ih =>
    rw [List.foldlM_cons, h i (List.mem_cons_self ..)]
    simp only [bind, Except.bind]
    rw [ih (fun j hj => h j (List.mem_cons_of_mem _ hj)), List.map_cons, List.sum_cons, add_assoc]

theorem foldlM_none {β : Type} {F : Option ℝ → β → Except Err (Option ℝ)} {l : List β} (h : ∀ i ∈ l, ∀ a, F a i = .ok none) (hl : l ≠ []) (a : Option ℝ) :
    l.foldlM F a = .ok none := by
  induction l generalizing a with
  | nil => exact absurd rfl hl
  | cons i l ih =>
    rw [List.foldlM_cons, h i (List.mem_cons_self ..)]
    simp only [bind, Except.bind]
    by_cases hl' : l = []
    · subst hl'; rfl
    · exact ih (fun j hj => h j (List.mem_cons_of_mem _ hj)) hl' none

theorem foldlM_index {α β : Type} {F : α → β → Except Err α} {l : List β} (h : ∀ i ∈ l, ∀ a, (∃ x, F a i = .ok x) ∨ F a i = .error .index)
    (he : ∃ i ∈ l, ∀ a, F a i = .error .index) (a : α) : l.foldlM F a = .error .index := by
  induction l generalizing a with
  | nil => obtain ⟨i, hi, -⟩ := he; exact absurd hi (by simp)
  | cons i l ih =>
    rw [List.foldlM_cons]
    rcases h i (List.mem_cons_self ..) a with ⟨x, hx⟩ | hx
    · rw [hx]
      simp only [bind, Except.bind]
      obtain ⟨k, hk, hk'⟩ := he
      rcases List.mem_cons.1 hk with rfl | hk
      · rw [hk'] at hx; exact absurd hx (by simp)
      · exact ih (fun j hj => h j (List.mem_cons_of_mem _ hj)) ⟨k, hk, hk'⟩ x
    · rw [hx]; rfl

theorem foldlM_either {α β : Type} {F : α → β → Except Err α} {l : List β} (h : ∀ i ∈ l, ∀ a, (∃ x, F a i = .ok x) ∨ F a i = .error .index) (a : α) :
    (∃ x, l.foldlM F a = .ok x) ∨ l.foldlM F a = .error .index := by
  induction l generalizing a with
  | nil => exact Or.inl ⟨a, rfl⟩
  | cons i l ih =>
    rw [List.foldlM_cons]
    rcases h i (List.mem_cons_self ..) a with ⟨x, hx⟩ | hx
    · rw [hx]
      exact ih (fun j hj => h j (List.mem_cons_of_mem _ hj)) x
    · rw [hx]; exact Or.inr rfl

end Folds

theorem total_some {v : Fin d → Option ℝ} {w : Fin d → ℝ} (h : ∀ c, v c = some (w c)) : total v = some (∑ c, w c) := by
  have : ∀ (l : List (Fin d)) (a : ℝ), l.foldl (fun acc c => Option.map₂ (· + ·) acc (v c)) (some a) = some (a + (l.map w).sum) := by
    intro l
    induction l with
    | nil => simp
    | cons c l ih =>
      intro a
      rw [List.foldl_cons, h c]
      simp only [Option.map₂_some_some]
      rw [ih, List.map_cons, List.sum_cons, add_assoc]
  unfold total
  rw [this, zero_add, ← List.sum_toFinset _ (List.nodup_finRange d)]
  congr 2
  ext; simp

theorem total_none {v : Fin d → Option ℝ} {c : Fin d} (h : v c = none) : total v = none := by
  have h1 : ∀ (l : List (Fin d)), l.foldl (fun acc c => Option.map₂ (· + ·) acc (v c)) none = none := by
    intro l
    induction l with
    | nil => rfl
    | cons c l ih => simpa using ih
  have : ∀ (l : List (Fin d)) (a : Option ℝ), c ∈ l → l.foldl (fun acc c => Option.map₂ (· + ·) acc (v c)) a = none := by
    intro l
    induction l with
    | nil => simp
    | cons b l ih =>
      intro a hb
      rw [List.foldl_cons]
      rcases List.mem_cons.1 hb with rfl | hb
      · rw [h, Option.map₂_none_right, h1]
      · exact ih _ hb
  exact this _ _ (List.mem_finRange c)

/-- The entry `t` of a column, zero beyond the end. -/
noncomputable def entry (s : Fin n → ℝ) (t : Nat) : ℝ := if h : t < n then s ⟨t, h⟩ else 0

/-- The number added for row `i`, neighbour `j` and a sorted column. -/
noncomputable def T (k : Nat) (eps : ℝ) (s : Fin n → ℝ) (i j : Nat) : ℝ :=
  if i < k then Real.log ((entry s i - entry s (i + j)) ^ 2 + eps)
  else if n ≤ i + k then Real.log ((entry s i - entry s (i - j)) ^ 2 + eps)
  else min (Real.log ((entry s i - entry s (i - j)) ^ 2 + eps)) (Real.log ((entry s i - entry s (i + j)) ^ 2 + eps))

theorem getRow_ok {z : Fin d → Option (Fin n → ℝ)} {t : Nat} (h : t < n) :
    getRow z t = .ok fun c => (z c).map fun f => entry (sorted f) t := by
  simp only [getRow, row, dif_pos h, entry, pure, Except.pure]

theorem getRow_index {z : Fin d → Option (Fin n → ℝ)} {t : Nat} (h : ¬ t < n) : getRow z t = .error .index := by
  simp only [getRow, row, dif_neg h, throw, throwThe, MonadExceptOf.throw]

theorem term_ok {k : Nat} {eps : ℝ} {z : Fin d → Option (Fin n → ℝ)} {i j : Nat} (hi : i < n) (hj : j ≤ k) (hk : 2 * k ≤ n) :
    term k eps z i j = .ok (total fun c => (z c).map fun f => T k eps (sorted f) i j) := by
  unfold term T
  by_cases h1 : i < k
  · simp only [if_pos h1]
    rw [getRow_ok hi, getRow_ok (show i + j < n by omega)]
    simp only [bind, Except.bind, pure, Except.pure, Except.ok.injEq]
    congr 1
    funext c
    cases z c <;> simp [logSq]
  · simp only [if_neg h1]
    by_cases h2 : n ≤ i + k
    · simp only [if_pos h2]
      rw [getRow_ok hi, getRow_ok (show i - j < n by omega)]
      simp only [bind, Except.bind, pure, Except.pure, Except.ok.injEq]
      congr 1
      funext c
      cases z c <;> simp [logSq]
    · simp only [if_neg h2]
      rw [getRow_ok hi, getRow_ok (show i - j < n by omega), getRow_ok (show i + j < n by omega)]
      simp only [bind, Except.bind, pure, Except.pure, Except.ok.injEq]
      congr 1
      funext c
      cases z c <;> simp [logSq]

theorem getRow_either (z : Fin d → Option (Fin n → ℝ)) (t : Nat) : (∃ x, getRow z t = .ok x) ∨ getRow z t = .error .index := by
  by_cases h : t < n
  · exact Or.inl ⟨_, getRow_ok h⟩
  · exact Or.inr (getRow_index h)

theorem term_either (k : Nat) (eps : ℝ) (z : Fin d → Option (Fin n → ℝ)) (i j : Nat) : (∃ x, term k eps z i j = .ok x) ∨ term k eps z i j = .error .index := by
  unfold term
  rcases getRow_either z i with ⟨a, ha⟩ | ha <;> rcases getRow_either z (i + j) with ⟨b, hb⟩ | hb <;>
    rcases getRow_either z (i - j) with ⟨c, hc⟩ | hc <;> simp only [ha, hb, hc, bind, Except.bind, pure, Except.pure] <;>
    split <;> (try split) <;> simp

/-- The loss where it is a number: the sum over rows, neighbours and columns. -/
noncomputable def value (k : Nat) (eps : ℝ) (z : Fin d → Fin n → ℝ) : ℝ :=
  (∑ i ∈ Finset.range n, ∑ j ∈ Finset.range k, ∑ c, T k eps (sorted (z c)) i (j + 1)) / k

theorem sum_range_list (m : Nat) (f : Nat → ℝ) : ((List.range m).map f).sum = ∑ i ∈ Finset.range m, f i := by
  induction m with
  | zero => simp
  | succ m ih => rw [List.range_succ, List.map_append, List.sum_append, ih, Finset.sum_range_succ]; simp

theorem loss_some {k : Nat} {eps : ℝ} (hk : 1 ≤ k) (hn : 2 * k ≤ n) {output input : Fin n → Fin d → ℝ} {z : Fin d → Fin n → ℝ}
    (hz : ∀ c, normalise (fun i => input i c - output i c) = some (z c)) : knnLoss k eps output input = .ok (some (value k eps z)) := by
  unfold knnLoss loop
  rw [foldlM_some (v := fun i => ∑ j ∈ Finset.range k, ∑ c, T k eps (sorted (z c)) i (j + 1))]
  · simp only [bind, Except.bind, if_neg (show k ≠ 0 by omega), pure, Except.pure, Option.map_some, zero_add, sum_range_list]
    rfl
  · intro i hi a
    rw [foldlM_some (v := fun j => ∑ c, T k eps (sorted (z c)) i (j + 1)), sum_range_list]
    intro j hj b
    rw [term_ok (List.mem_range.1 hi) (by have := List.mem_range.1 hj; omega) hn,
      total_some (w := fun c => T k eps (sorted (z c)) i (j + 1)) (fun c => by rw [hz c]; rfl)]
    rfl

theorem loss_none {k : Nat} {eps : ℝ} (hk : 1 ≤ k) (hn : 2 * k ≤ n) {output input : Fin n → Fin d → ℝ} {c : Fin d}
    (hz : normalise (fun i => input i c - output i c) = none) : knnLoss k eps output input = .ok none := by
  unfold knnLoss loop
  rw [foldlM_none]
  · simp only [bind, Except.bind, if_neg (show k ≠ 0 by omega), pure, Except.pure, Option.map_none]
  · intro i hi a
    refine foldlM_none (fun j hj b => ?_) (by simp; omega) a
    rw [term_ok (List.mem_range.1 hi) (by have := List.mem_range.1 hj; omega) hn, total_none (c := c) (by rw [hz]; rfl)]
    simp [bind, Except.bind, pure, Except.pure]
  · simp; omega

theorem std_zero {x : Fin n → ℝ} (hn : 2 ≤ n) : std x = 0 ↔ ∀ i j, x i = x j := by
  have hn' : (0 : ℝ) < (n : ℝ) - 1 := by
    have : (2 : ℝ) ≤ n := by exact_mod_cast hn
    linarith
  unfold std
  rw [Real.sqrt_eq_zero (div_nonneg (Finset.sum_nonneg fun i _ => sq_nonneg _) hn'.le), div_eq_zero_iff, or_iff_left hn'.ne',
    Finset.sum_eq_zero_iff_of_nonneg fun i _ => sq_nonneg _]
  constructor
  · intro h i j
    have h1 := pow_eq_zero_iff (two_ne_zero) |>.1 (h i (Finset.mem_univ _))
    have h2 := pow_eq_zero_iff (two_ne_zero) |>.1 (h j (Finset.mem_univ _))
    linarith
  · intro h i _
    have : mean x = x i := by
      unfold mean
      rw [Finset.sum_congr rfl fun j _ => h j i, Finset.sum_const, Finset.card_univ, Fintype.card_fin, nsmul_eq_mul, mul_comm, mul_div_assoc,
        div_self (by positivity), mul_one]
    rw [this]; simp

theorem normalise_some {x : Fin n → ℝ} (hn : 2 ≤ n) (h : ¬ ∀ i j, x i = x j) : normalise x = some fun i => (x i - mean x) / std x := by
  unfold normalise
  rw [if_neg]
  rintro (h' | h')
  · exact h ((std_zero hn).1 h')
  · omega

/-- C161: which calls raise, and where the loss is a number. It raises an IndexError exactly for fewer than twice as many rows as neighbours (and at least one row),
a ZeroDivisionError for no neighbours; else it is a number exactly if every residual column varies (with no rows it is 0). -/
theorem c161_raises (k : Nat) (eps : ℝ) (output input : Fin n → Fin d → ℝ) :
    (k = 0 → knnLoss k eps output input = .error .exception) ∧
    (1 ≤ k → 1 ≤ n → n < 2 * k → knnLoss k eps output input = .error .index) ∧
    (1 ≤ k → n = 0 → knnLoss k eps output input = .ok (some 0)) ∧
    (1 ≤ k → 2 * k ≤ n → ∃ v, knnLoss k eps output input = .ok v ∧
      ((∃ x, v = some x) ↔ ∀ c, ∃ i j, input i c - output i c ≠ input j c - output j c)) := by
  refine ⟨?_, ?_, ?_, ?_⟩
  · rintro rfl
    unfold knnLoss loop
    have h : ∀ (l : List Nat) (a : Option ℝ), (l.foldlM (fun acc i => (List.range 0).foldlM (fun acc j => do
        let t ← term 0 eps (fun c => normalise fun i => input i c - output i c) i (j + 1)
        pure (Option.map₂ (· + ·) acc t)) acc) a : Except Err (Option ℝ)) = .ok a := by
      intro l
      induction l with
      | nil => intro a; rfl
      | cons i l ih =>
        intro a
        rw [List.foldlM_cons]
        exact ih a
    rw [h]
    rfl
  · intro hk hn h
    unfold knnLoss loop
    rw [foldlM_index]
    · rfl
    · intro i _ a
      refine foldlM_either (fun j _ b => ?_) a
      rcases term_either k eps (fun c => normalise fun i => input i c - output i c) i (j + 1) with ⟨x, hx⟩ | hx
      · exact Or.inl ⟨_, by rw [hx]; rfl⟩
      · exact Or.inr (by rw [hx]; rfl)
    · refine ⟨min k n - 1, List.mem_range.2 (by omega), fun a => foldlM_index (fun j _ b => ?_) ⟨k - 1, List.mem_range.2 (by omega), fun b => ?_⟩ a⟩
      · rcases term_either k eps (fun c => normalise fun i => input i c - output i c) (min k n - 1) (j + 1) with ⟨x, hx⟩ | hx
        · exact Or.inl ⟨_, by rw [hx]; rfl⟩
        · exact Or.inr (by rw [hx]; rfl)
      · have : term k eps (fun c => normalise fun i => input i c - output i c) (min k n - 1) (k - 1 + 1) = .error .index := by
          unfold term
          rw [if_pos (by omega), getRow_ok (by omega), getRow_index (by omega)]
          rfl
        rw [this]
        rfl
  · rintro hk rfl
    unfold knnLoss loop
    simp [bind, Except.bind, pure, Except.pure, show k ≠ 0 by omega]
  · intro hk hn
    by_cases h : ∀ c, ∃ i j, input i c - output i c ≠ input j c - output j c
    · refine ⟨_, loss_some hk hn fun c => normalise_some (by omega) ?_, by simpa using h⟩
      obtain ⟨i, j, hij⟩ := h c
      exact fun h' => hij (h' i j)
    · refine ⟨none, ?_, by simpa using h⟩
      push Not at h
      obtain ⟨c, hc⟩ := h
      refine loss_none (c := c) hk hn ?_
      unfold normalise
      rw [if_pos]
      exact Or.inl ((std_zero (by omega)).2 hc)

example : knnLoss 1 1 (fun _ _ => 0) (fun (i : Fin 1) (_ : Fin 1) => (i.val : ℝ)) = .error .index :=
  (c161_raises 1 1 _ _).2.1 (by norm_num) (by norm_num) (by norm_num)

theorem sorted_mono (z : Fin n → ℝ) : Monotone (sorted z) := Tuple.monotone_sort z

/-- The variance with `n - 1`. -/
noncomputable def var (x : Fin n → ℝ) : ℝ := (∑ i, (x i - (∑ j, x j) / n) ^ 2) / ((n : ℝ) - 1)

theorem std_sq {x : Fin n → ℝ} (hn : 2 ≤ n) : std x ^ 2 = var x := by
  have hn' : (0 : ℝ) < (n : ℝ) - 1 := by
    have : (2 : ℝ) ≤ n := by exact_mod_cast hn
    linarith
  exact Real.sq_sqrt (div_nonneg (Finset.sum_nonneg fun i _ => sq_nonneg _) hn'.le)

/-- One neighbour: the term of a sorted column is the logarithm of the least squared difference. -/
theorem T_one {eps : ℝ} (he : 0 < eps) {s : Fin n → ℝ} (hs : Monotone s) (hn : 2 ≤ n) (i : Fin n) {m : ℝ}
    (hm : IsLeast {q | ∃ i', i' ≠ i ∧ q = (s i - s i') ^ 2} m) : T 1 eps s i 1 = Real.log (m + eps) := by
  have hent : ∀ t : Fin n, entry s t = s t := fun t => by simp [entry]
  have sq_le : ∀ a b c : ℝ, a ≤ b → b ≤ c → (a - b) ^ 2 ≤ (a - c) ^ 2 := fun a b c h1 h2 => by nlinarith
  have sq_le' : ∀ a b c : ℝ, c ≤ b → b ≤ a → (a - b) ^ 2 ≤ (a - c) ^ 2 := fun a b c h1 h2 => by nlinarith
  obtain ⟨⟨w, hw, hmw⟩, hlow⟩ := hm
  have hle : ∀ t : Fin n, t ≠ i → m ≤ (s i - s t) ^ 2 := fun t ht => hlow ⟨t, ht, rfl⟩
  unfold T
  by_cases h0 : i.val < 1
  · rw [if_pos h0]
    have h1 : i.val + 1 < n := by omega
    have e1 := hent ⟨i.val + 1, h1⟩
    simp only at e1
    rw [hent, e1]
    have hne : (⟨i.val + 1, h1⟩ : Fin n) ≠ i := fun h => by have := congrArg Fin.val h; simp at this
    have hwi : w.val ≠ i.val := fun h => hw (Fin.ext h)
    have : m = (s i - s ⟨i.val + 1, h1⟩) ^ 2 := by
      refine le_antisymm (hle _ hne) ?_
      rw [hmw]
      exact sq_le _ _ _ (hs (Fin.le_def.2 (by simp))) (hs (Fin.le_def.2 (by simp only; omega)))
    rw [this]
  · rw [if_neg h0]
    have hl : i.val - 1 < n := by omega
    have e0 := hent ⟨i.val - 1, hl⟩
    simp only at e0
    have hnel : (⟨i.val - 1, hl⟩ : Fin n) ≠ i := fun h => by have := congrArg Fin.val h; simp at this; omega
    have hwi : w.val ≠ i.val := fun h => hw (Fin.ext h)
    have hleft : w.val < i.val → (s i - s ⟨i.val - 1, hl⟩) ^ 2 ≤ m := fun h => by
      rw [hmw]
      exact sq_le' _ _ _ (hs (Fin.le_def.2 (by simp only; omega))) (hs (Fin.le_def.2 (by simp only; omega)))
    by_cases h2 : n ≤ i.val + 1
    · rw [if_pos h2, hent, e0]
      rw [le_antisymm (hle _ hnel) (hleft (by omega))]
    · rw [if_neg h2]
      have h1 : i.val + 1 < n := by omega
      have e1 := hent ⟨i.val + 1, h1⟩
      simp only at e1
      have hne : (⟨i.val + 1, h1⟩ : Fin n) ≠ i := fun h => by have := congrArg Fin.val h; simp at this
      rw [hent, e0, e1]
      have hmono : ∀ a b : ℝ, 0 ≤ a → a ≤ b → Real.log (a + eps) ≤ Real.log (b + eps) := fun a b ha hab =>
        Real.log_le_log (by linarith) (by linarith)
      have hm0 : 0 ≤ m := by rw [hmw]; exact sq_nonneg _
      rcases lt_or_gt_of_ne hwi with h | h
      · rw [le_antisymm (hle _ hnel) (hleft h)]
        exact min_eq_left (hmono _ _ (sq_nonneg _) (by rw [← le_antisymm (hle _ hnel) (hleft h)]; exact hle _ hne))
      · have hr : m = (s i - s ⟨i.val + 1, h1⟩) ^ 2 := by
          refine le_antisymm (hle _ hne) ?_
          rw [hmw]
          exact sq_le _ _ _ (hs (Fin.le_def.2 (by simp only; omega))) (hs (Fin.le_def.2 (by simp only; omega)))
        rw [hr]
        exact min_eq_right (hmono _ _ (sq_nonneg _) (by rw [← hr]; exact hle _ hnel))

/-- C161: with one neighbour (the default) the loss is, over all columns and rows, the sum of the logarithms of the squared distance to the nearest other
residual in units of the variance, plus EPS. -/
theorem c161_nearest {eps : ℝ} (he : 0 < eps) (hn : 2 ≤ n) (output input r : Fin n → Fin d → ℝ) (hr : ∀ i c, r i c = input i c - output i c)
    (hvary : ∀ c, ∃ i j, r i c ≠ r j c) {m : Fin n → Fin d → ℝ} (hm : ∀ i c, IsLeast {q | ∃ i', i' ≠ i ∧ q = (r i c - r i' c) ^ 2} (m i c)) :
    knnLoss 1 eps output input = .ok (some (∑ c, ∑ i, Real.log (m i c / var (fun i => r i c) + eps))) := by
  have hr' : ∀ c, (fun i => input i c - output i c) = fun i => r i c := fun c => by funext i; rw [hr]
  have hvar : ∀ c, ¬ ∀ i j, r i c = r j c := fun c h => by obtain ⟨i, j, hij⟩ := hvary c; exact hij (h i j)
  rw [loss_some (le_refl 1) (by omega) fun c => by rw [hr']; exact normalise_some hn (hvar c)]
  congr 2
  unfold value
  rw [Nat.cast_one, div_one]
  simp only [Finset.sum_range_one, zero_add]
  rw [Finset.sum_comm]
  refine Finset.sum_congr rfl fun c _ => ?_
  set z : Fin n → ℝ := fun i => (r i c - mean fun i => r i c) / std fun i => r i c with hz
  have hs0 : std (fun i => r i c) ≠ 0 := fun h => hvar c ((std_zero hn).1 h)
  have hs2 : 0 < std (fun i => r i c) ^ 2 := by positivity
  have hdiff : ∀ a b, (z a - z b) ^ 2 = (r a c - r b c) ^ 2 / var (fun i => r i c) := by
    intro a b
    rw [← std_sq hn, hz]
    simp only
    rw [← sub_div, div_pow]
    congr 2
    ring
  rw [Finset.sum_range fun i => T 1 eps (sorted z) i 1]
  rw [← Equiv.sum_comp (Tuple.sort z) fun i => Real.log (m i c / var (fun i => r i c) + eps)]
  refine Finset.sum_congr rfl fun i _ => T_one he (sorted_mono z) hn i ?_
  obtain ⟨⟨w, hw, hmw⟩, hlow⟩ := hm (Tuple.sort z i) c
  rw [← std_sq hn] at hdiff ⊢
  constructor
  · refine ⟨(Tuple.sort z).symm w, fun h => hw (by rw [← h, Equiv.apply_symm_apply]), ?_⟩
    simp only [sorted, Function.comp_apply, Equiv.apply_symm_apply]
    rw [hdiff, hmw]
  · rintro q ⟨i', hi', rfl⟩
    simp only [sorted, Function.comp_apply]
    rw [hdiff]
    exact div_le_div_of_nonneg_right (hlow ⟨Tuple.sort z i', fun h => hi' ((Tuple.sort z).injective h), rfl⟩) hs2.le

/-- Two residuals at distance 2 with variance 2. -/
example : knnLoss 1 1 (fun _ _ => 0) (fun (i : Fin 2) (_ : Fin 1) => 2 * (i.val : ℝ)) = .ok (some (2 * Real.log 3)) := by
  rw [c161_nearest (r := fun i _ => 2 * (i.val : ℝ)) (m := fun _ _ => 4) (by norm_num) (by norm_num) _ _ (by simp) (fun _ => ⟨0, 1, by simp⟩)]
  · have hv : var (fun i : Fin 2 => 2 * (i.val : ℝ)) = 2 := by simp [var, Fin.sum_univ_two]; norm_num
    simp only [hv, Finset.univ_unique, Finset.sum_singleton, Fin.sum_univ_two]
    norm_num
    ring
  · intro i c
    fin_cases i
    · refine ⟨⟨1, by decide, by norm_num⟩, ?_⟩
      rintro q ⟨i', h, rfl⟩
      fin_cases i'
      · exact absurd rfl h
      · norm_num
    · refine ⟨⟨0, by decide, by norm_num⟩, ?_⟩
      rintro q ⟨i', h, rfl⟩
      fin_cases i'
      · norm_num
      · exact absurd rfl h

theorem sorted_unique {z w : Fin n → ℝ} {σ : Equiv.Perm (Fin n)} (h : w = z ∘ σ) : sorted w = sorted z := by
  unfold sorted
  subst h
  have h1 : Monotone (z ∘ (Tuple.sort (z ∘ σ)).trans σ) := Tuple.monotone_sort (z ∘ σ)
  exact Tuple.unique_monotone h1 (Tuple.monotone_sort z)

theorem sorted_neg (z : Fin n → ℝ) : sorted (fun i => -z i) = fun i => -sorted z i.rev := by
  unfold sorted
  have h1 : Monotone ((fun i => -z i) ∘ (Fin.revPerm.trans (Tuple.sort z))) := fun a b hab =>
    neg_le_neg (Tuple.monotone_sort z (Fin.rev_le_rev.2 hab))
  exact Tuple.unique_monotone (Tuple.monotone_sort _) h1

/-- The terms of the reversed negated column. -/
theorem T_rev {k : Nat} {eps : ℝ} {s : Fin n → ℝ} {i j : Nat} (hi : i < n) (hj1 : 1 ≤ j) (hj : j ≤ k) (hk : 2 * k ≤ n) :
    T k eps (fun i => -s i.rev) i j = T k eps s (n - 1 - i) j := by
  have hent : ∀ t, t < n → entry (fun i : Fin n => -s i.rev) t = -entry s (n - 1 - t) := by
    intro t ht
    have h2 : n - 1 - t < n := by omega
    simp only [entry, dif_pos ht, dif_pos h2]
    congr 2
    ext
    simp
    omega
  have hsq : ∀ a b : ℝ, (-a - -b) ^ 2 = (a - b) ^ 2 := fun a b => by ring
  unfold T
  by_cases h1 : i < k
  · rw [if_pos h1, if_neg (by omega), if_pos (by omega), hent i hi, hent (i + j) (by omega), hsq, show n - 1 - (i + j) = n - 1 - i - j by omega]
  · by_cases h2 : n ≤ i + k
    · rw [if_neg h1, if_pos h2, if_pos (by omega), hent i hi, hent (i - j) (by omega), hsq, show n - 1 - (i - j) = n - 1 - i + j by omega]
    · rw [if_neg h1, if_neg h2, if_neg (by omega), if_neg (by omega), hent i hi, hent (i - j) (by omega), hent (i + j) (by omega), hsq, hsq, min_comm,
        show n - 1 - (i - j) = n - 1 - i + j by omega, show n - 1 - (i + j) = n - 1 - i - j by omega]

theorem mean_affine (x : Fin n → ℝ) (a b : ℝ) (hn : n ≠ 0) : mean (fun i => a * x i + b) = a * mean x + b := by
  unfold mean
  have : (n : ℝ) ≠ 0 := by exact_mod_cast hn
  rw [Finset.sum_add_distrib, ← Finset.mul_sum, Finset.sum_const, Finset.card_univ, Fintype.card_fin, nsmul_eq_mul]
  field_simp

theorem std_affine (x : Fin n → ℝ) (a b : ℝ) (hn : n ≠ 0) : std (fun i => a * x i + b) = |a| * std x := by
  unfold std
  rw [← Real.sqrt_sq_eq_abs, ← Real.sqrt_mul (sq_nonneg a), mean_affine x a b hn]
  congr 1
  rw [← mul_div_assoc, Finset.mul_sum]
  congr 1
  refine Finset.sum_congr rfl fun i _ => ?_
  ring

/-- C161: the loss does not change if each residual column is shifted and scaled, with any factor that is not zero: residuals of any size have the same loss. -/
theorem c161_scale (k : Nat) (eps : ℝ) {output input output' input' : Fin n → Fin d → ℝ} {a b : Fin d → ℝ} (ha : ∀ c, a c ≠ 0)
    (h : ∀ i c, input' i c - output' i c = a c * (input i c - output i c) + b c) :
    knnLoss k eps output' input' = knnLoss k eps output input := by
  obtain ⟨h0, h1, h2, h3⟩ := c161_raises k eps output input
  obtain ⟨g0, g1, g2, g3⟩ := c161_raises k eps output' input'
  rcases Nat.eq_zero_or_pos k with hk | hk
  · rw [h0 hk, g0 hk]
  rcases Nat.eq_zero_or_pos n with hn | hn
  · rw [h2 hk hn, g2 hk hn]
  by_cases hkn : n < 2 * k
  · rw [h1 hk hn hkn, g1 hk hn hkn]
  have hkn' : 2 * k ≤ n := by omega
  have hcol : ∀ c, (fun i => input' i c - output' i c) = fun i => a c * (input i c - output i c) + b c := fun c => funext fun i => h i c
  by_cases hv : ∀ c, ¬ ∀ i j, input i c - output i c = input j c - output j c
  · rw [loss_some hk hkn' fun c => normalise_some (by omega) (hv c), loss_some hk hkn' fun c => normalise_some (x := fun i => input' i c - output' i c) (by omega) ?_]
    · congr 2
      unfold value
      congr 1
      have key : ∀ c, ∑ i ∈ Finset.range n, ∑ j ∈ Finset.range k, T k eps (sorted fun i => (input' i c - output' i c - mean fun i => input' i c - output' i c) /
          std fun i => input' i c - output' i c) i (j + 1) = ∑ i ∈ Finset.range n, ∑ j ∈ Finset.range k, T k eps (sorted fun i => (input i c - output i c -
          mean fun i => input i c - output i c) / std fun i => input i c - output i c) i (j + 1) := by
        intro c
        have hs0 : std (fun i => input i c - output i c) ≠ 0 := fun h => hv c ((std_zero (by omega)).1 h)
        rw [hcol c, std_affine _ _ _ hn.ne', mean_affine _ _ _ hn.ne']
        simp only [h]
        rcases lt_or_gt_of_ne (ha c) with hneg | hpos
        · have hz : (fun i => (a c * (input i c - output i c) + b c - (a c * (mean fun i => input i c - output i c) + b c)) / (|a c| * std fun i => input i c - output i c)) =
              fun i => -((input i c - output i c - mean fun i => input i c - output i c) / std fun i => input i c - output i c) := by
            funext i
            rw [abs_of_neg hneg]
            have := hneg.ne
            field_simp
            ring
          rw [hz, sorted_neg, ← Finset.sum_range_reflect]
          refine Finset.sum_congr rfl fun i hi => Finset.sum_congr rfl fun j hj => ?_
          have hi' := Finset.mem_range.1 hi
          have hj' := Finset.mem_range.1 hj
          rw [T_rev (s := sorted fun i => (input i c - output i c - mean fun i => input i c - output i c) / std fun i => input i c - output i c)
            (by omega) (by omega) (by omega) hkn']
          congr 1
          omega
        · have hz : (fun i => (a c * (input i c - output i c) + b c - (a c * (mean fun i => input i c - output i c) + b c)) / (|a c| * std fun i => input i c - output i c)) =
              fun i => (input i c - output i c - mean fun i => input i c - output i c) / std fun i => input i c - output i c := by
            funext i
            rw [abs_of_pos hpos]
            have := hpos.ne'
            field_simp
            ring
          rw [hz]
      have swap : ∀ f : Nat → Nat → Fin d → ℝ, ∑ i ∈ Finset.range n, ∑ j ∈ Finset.range k, ∑ c, f i j c = ∑ c, ∑ i ∈ Finset.range n, ∑ j ∈ Finset.range k, f i j c := by
        intro f
        exact (Finset.sum_congr rfl fun i _ => Finset.sum_comm).trans Finset.sum_comm
      rw [swap, swap]
      exact Finset.sum_congr rfl fun c _ => key c
    · intro h'
      apply hv c
      intro i j
      have := h' i j
      rw [h, h] at this
      exact mul_left_cancel₀ (ha c) (by linarith)
  · push Not at hv
    obtain ⟨c, hc⟩ := hv
    rw [loss_none (c := c) (output := output) hk hkn' (by unfold normalise; rw [if_pos (Or.inl ((std_zero (by omega)).2 hc))]),
      loss_none (c := c) hk hkn' (by unfold normalise; rw [if_pos (Or.inl ((std_zero (by omega)).2 fun i j => by rw [h, h, hc i j]))])]

/-- C161: nor if the rows are permuted. -/
theorem c161_perm (k : Nat) (eps : ℝ) (output input : Fin n → Fin d → ℝ) (σ : Equiv.Perm (Fin n)) :
    knnLoss k eps (fun i => output (σ i)) (fun i => input (σ i)) = knnLoss k eps output input := by
  have hmean : ∀ x : Fin n → ℝ, mean (fun i => x (σ i)) = mean x := fun x => by unfold mean; rw [Equiv.sum_comp σ x]
  have hstd : ∀ x : Fin n → ℝ, std (fun i => x (σ i)) = std x := fun x => by
    unfold std
    rw [hmean, Equiv.sum_comp σ fun i => (x i - mean x) ^ 2]
  have hrow : ∀ (z : Fin d → Option (Fin n → ℝ)) t, row (fun c => (z c).map fun f => f ∘ σ) t = row z t := by
    intro z t
    unfold row
    split
    · congr 1
      funext c
      rw [Option.map_map]
      congr 1
      funext f
      simp only [Function.comp_def]
      exact congrFun (sorted_unique rfl) _
    · rfl
  have hterm : ∀ (z : Fin d → Option (Fin n → ℝ)) i j, term k eps (fun c => (z c).map fun f => f ∘ σ) i j = term k eps z i j := by
    intro z i j
    simp only [term, getRow, hrow]
  have hz : (fun c => normalise fun i => input (σ i) c - output (σ i) c) =
      fun c => (normalise fun i => input i c - output i c).map fun f => f ∘ σ := by
    funext c
    have h1 := hstd fun i => input i c - output i c
    have h2 := hmean fun i => input i c - output i c
    unfold normalise
    rw [h1, h2]
    split <;> rfl
  unfold knnLoss loop
  rw [hz]
  simp only [hterm]

/-- Four residuals, one column. -/
noncomputable def four : Fin 4 → Fin 1 → ℝ := fun i _ => ![0, 1, 10, 11] i

/-- The two nearest residuals of each. -/
def nearTwo : Fin 4 → Fin 2 → Fin 4 := ![![1, 2], ![0, 2], ![3, 1], ![2, 1]]

theorem four_terms (eps : ℝ) (s : Fin 4 → ℝ) : T 2 eps s 0 1 = Real.log ((s 0 - s 1) ^ 2 + eps) ∧ T 2 eps s 0 (1 + 1) = Real.log ((s 0 - s 2) ^ 2 + eps) ∧
    T 2 eps s 1 1 = Real.log ((s 1 - s 2) ^ 2 + eps) ∧ T 2 eps s 1 (1 + 1) = Real.log ((s 1 - s 3) ^ 2 + eps) ∧
    T 2 eps s (1 + 1) 1 = Real.log ((s 2 - s 1) ^ 2 + eps) ∧ T 2 eps s (1 + 1) (1 + 1) = Real.log ((s 2 - s 0) ^ 2 + eps) ∧
    T 2 eps s (1 + 1 + 1) 1 = Real.log ((s 3 - s 2) ^ 2 + eps) ∧ T 2 eps s (1 + 1 + 1) (1 + 1) = Real.log ((s 3 - s 1) ^ 2 + eps) := by
  refine ⟨?_, ?_, ?_, ?_, ?_, ?_, ?_, ?_⟩ <;> simp [T, entry]

/-- C161: "with k neighbours the loss uses the k nearest residuals" is false for two neighbours: for the residuals 0, 1, 10, 11 the loss is greater than the
mean over the two nearest. -/
theorem c161_two_false {eps : ℝ} (he : 0 < eps) :
    (∀ i, Function.Injective (nearTwo i) ∧ (∀ a, nearTwo i a ≠ i) ∧
      ∀ i', i' ≠ i → (∀ a, i' ≠ nearTwo i a) → ∀ a, (four i 0 - four (nearTwo i a) 0) ^ 2 ≤ (four i 0 - four i' 0) ^ 2) ∧
    ∃ v, knnLoss 2 eps (fun _ _ => 0) four = .ok (some v) ∧
      (∑ i, ∑ a, Real.log ((four i 0 - four (nearTwo i a) 0) ^ 2 / var (fun i => four i 0) + eps)) / 2 < v := by
  have hvals : four 0 0 = 0 ∧ four 1 0 = 1 ∧ four 2 0 = 10 ∧ four 3 0 = 11 := by simp [four]
  obtain ⟨f0, f1, f2, f3⟩ := hvals
  constructor
  · intro i
    refine ⟨by revert i; decide, by revert i; decide, ?_⟩
    have hcases : ∀ i i' : Fin 4, i' ≠ i → (∀ a, i' ≠ nearTwo i a) → ∀ a : Fin 2,
        (i, i', nearTwo i a) ∈ [((0 : Fin 4), (3 : Fin 4), (1 : Fin 4)), (0, 3, 2), (1, 3, 0), (1, 3, 2), (2, 0, 3), (2, 0, 1), (3, 0, 2), (3, 0, 1)] := by decide
    intro i' h1 h2 a
    have := hcases i i' h1 h2 a
    simp only [List.mem_cons, Prod.mk.injEq, List.not_mem_nil, or_false] at this
    rcases this with ⟨rfl, rfl, h⟩ | ⟨rfl, rfl, h⟩ | ⟨rfl, rfl, h⟩ | ⟨rfl, rfl, h⟩ | ⟨rfl, rfl, h⟩ | ⟨rfl, rfl, h⟩ | ⟨rfl, rfl, h⟩ | ⟨rfl, rfl, h⟩ <;>
      rw [h] <;> simp only [f0, f1, f2, f3] <;> norm_num
  · have hcol : (fun i : Fin 4 => four i 0 - 0) = fun i => four i 0 := by funext i; simp
    have hv : ¬ ∀ i j : Fin 4, four i 0 = four j 0 := fun h => by have := h 0 1; rw [f0, f1] at this; norm_num at this
    set x : Fin 4 → ℝ := fun i => four i 0 with hx
    have hs0 : std x ≠ 0 := fun h => hv ((std_zero (by norm_num)).1 h)
    have hspos : 0 < std x := lt_of_le_of_ne (Real.sqrt_nonneg _) (Ne.symm hs0)
    have hvpos : 0 < var x := by rw [← std_sq (by norm_num)]; positivity
    refine ⟨_, loss_some (z := fun _ i => (x i - mean x) / std x) (by norm_num) (by norm_num) fun c => ?_, ?_⟩
    · obtain rfl : c = 0 := Subsingleton.elim _ _
      rw [hcol]
      exact normalise_some (by norm_num) hv
    · have hmono : Monotone fun i => (x i - mean x) / std x := by
        have hxm : Monotone x := by
          intro a b hab
          fin_cases a <;> fin_cases b <;> (simp [hx, four] at hab ⊢; try norm_num)
        exact fun a b hab => div_le_div_of_nonneg_right (sub_le_sub_right (hxm hab) _) hspos.le
      have hsorted : sorted (fun i => (x i - mean x) / std x) = fun i => (x i - mean x) / std x := by
        unfold sorted
        rw [Tuple.sort_eq_refl_iff_monotone.2 hmono]
        rfl
      have hd : ∀ a b : Fin 4, ((x a - mean x) / std x - (x b - mean x) / std x) ^ 2 = (x a - x b) ^ 2 / var x := by
        intro a b
        rw [← std_sq (by norm_num), ← sub_div, div_pow]
        congr 2
        ring
      have hsum : value 2 eps (fun _ : Fin 1 => fun i => (x i - mean x) / std x) =
          (2 * Real.log (1 / var x + eps) + 2 * Real.log (100 / var x + eps) + 2 * Real.log (81 / var x + eps) + 2 * Real.log (100 / var x + eps)) / 2 := by
        unfold value
        simp only [hsorted, Finset.univ_unique, Finset.sum_singleton, Finset.sum_range_succ, Finset.sum_range_zero, zero_add]
        rw [(four_terms eps _).1, (four_terms eps _).2.1, (four_terms eps _).2.2.1, (four_terms eps _).2.2.2.1, (four_terms eps _).2.2.2.2.1,
          (four_terms eps _).2.2.2.2.2.1, (four_terms eps _).2.2.2.2.2.2.1, (four_terms eps _).2.2.2.2.2.2.2]
        simp only [hd]
        simp only [x, f0, f1, f2, f3]
        norm_num
        ring
      rw [hsum]
      have hnear : ∑ i, ∑ a, Real.log ((four i 0 - four (nearTwo i a) 0) ^ 2 / var x + eps) =
          4 * Real.log (1 / var x + eps) + 2 * Real.log (100 / var x + eps) + 2 * Real.log (81 / var x + eps) := by
        have e : ∀ i a, nearTwo i a = (![![1, 2], ![0, 2], ![3, 1], ![2, 1]] : Fin 4 → Fin 2 → Fin 4) i a := fun _ _ => rfl
        simp only [Fin.sum_univ_four, Fin.sum_univ_two, e]
        simp only [Matrix.cons_val_zero, Matrix.cons_val_one, Matrix.cons_val, f0, f1, f2, f3]
        norm_num
        ring
      rw [hnear]
      have hlog : Real.log (1 / var x + eps) < Real.log (100 / var x + eps) := by
        apply Real.log_lt_log
        · positivity
        · have : 1 / var x < 100 / var x := div_lt_div_of_pos_right (by norm_num) hvpos
          linarith
      linarith


end Cdmir.Knn
