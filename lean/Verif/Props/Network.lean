import Verif.Lemmas.Network
import Mathlib.LinearAlgebra.Vandermonde
import Mathlib.Tactic.FieldSimp
import Mathlib.Tactic.NormNum
import Mathlib.Tactic.FinCases

/-! C131-C133: what the weight matrix of a nonlinear model means, the bounds of its parameters, and the flat vector handed to the
optimiser. -/

namespace Cdmir.Net
open BigOperators Finset

/-! ### C131: the meaning of the matrix -/

theorem mlp_adj_eq_zero (p : Mlp ℝ) (i j : Fin p.d) : p.adj i j = 0 ↔ ∀ l, p.fc1 j l i = 0 := by
  have hn : 0 ≤ Notears.mlpA p.fc1 i j := Finset.sum_nonneg fun l _ => mul_self_nonneg _
  unfold Mlp.adj
  rw [Real.sqrt_eq_zero hn]
  unfold Notears.mlpA
  rw [Finset.sum_eq_zero_iff_of_nonneg fun l _ => mul_self_nonneg _]
  simp

theorem sob_adj_eq_zero (p : Sob ℝ) (i j : Fin p.d) : p.adj i j = 0 ↔ ∀ l, p.fc1 j i l = 0 := by
  have hn : 0 ≤ Notears.sobolevA p.fc1 i j := Finset.sum_nonneg fun l _ => mul_self_nonneg _
  unfold Sob.adj
  rw [Real.sqrt_eq_zero hn]
  unfold Notears.sobolevA
  rw [Finset.sum_eq_zero_iff_of_nonneg fun l _ => mul_self_nonneg _]
  simp

theorem localForward_congr {a b : Nat} {w c : List ℝ} {z z' : Nat → Nat → ℝ} {j : Nat} (h : ∀ l < a, z j l = z' j l) (e : Nat) :
    localForward a b w c z j e = localForward a b w c z' j e := by
  unfold localForward
  congr 1
  exact Finset.sum_congr rfl fun q hq => by rw [h q (Finset.mem_range.1 hq)]

/-- The hidden values of variable `j` are the weighted inputs. -/
theorem hidden_eq (p : Mlp ℝ) (x : Nat → ℝ) (j : Fin p.d) (l : Fin p.m1) :
    p.hidden x j l = ∑ i : Fin p.d, x i * p.fc1 j l i + (at' p.posB (j * p.m1 + l) - at' p.negB (j * p.m1 + l)) := by
  unfold Mlp.hidden linear Mlp.fc1
  rw [Finset.sum_range, Finset.sum_range]
  simp only [mul_sub, Finset.sum_sub_distrib]
  ring

/-- C131, the network: the estimate of variable `j` uses only the variables `i` with `W[i, j] ≠ 0`, whatever the activation, the
biases and the later layers are. -/
theorem c131_mlp (p : Mlp ℝ) (act : ℝ → ℝ) (x x' : Nat → ℝ) (j : Fin p.d) (hm : 0 < p.m1)
    (hx : ∀ i : Fin p.d, p.adj i j ≠ 0 → x i = x' i) : p.forward act x j = p.forward act x' j := by
  have hz : ∀ l < p.m1, p.hidden x j l = p.hidden x' j l := by
    intro l hl
    rw [show l = ((⟨l, hl⟩ : Fin p.m1) : Nat) from rfl, hidden_eq, hidden_eq]
    congr 1
    refine Finset.sum_congr rfl fun i _ => ?_
    by_cases h : p.adj i j = 0
    · rw [(mlp_adj_eq_zero p i j).1 h ⟨l, hl⟩]; simp
    · rw [hx i h]
  unfold Mlp.forward
  cases hd : (layerDims p.m1 p.rest).zip p.layers with
  | nil => exact hz 0 hm
  | cons q ls =>
    obtain ⟨⟨a, b⟩, w, c⟩ := q
    have ha : a = p.m1 := by
      unfold layerDims at hd
      cases hr : p.rest with
      | nil => rw [hr] at hd; simp at hd
      | cons r rs =>
        cases hq : p.layers with
        | nil => rw [hq] at hd; simp at hd
        | cons u us =>
          rw [hr, hq] at hd
          simp only [List.zip_cons_cons, List.cons.injEq, Prod.mk.injEq] at hd
          exact hd.1.1.1.symm
    rw [layersForward, layersForward]
    refine layersForward_congr act j ls (fun l => localForward_congr (fun l hl => ?_) l) 0
    rw [hz l (ha ▸ hl)]

/-- A network of two variables, one hidden unit each: variable 0 enters the network of variable 1. -/
def exMlp (c : ℝ) : Mlp ℝ := ⟨2, 1, [1], [0, 0, 2, 0], [1, 1], [0, 0, 0, 0], [0, 0], [([1, c], [0, 0])]⟩

theorem exMlp_adj (c : ℝ) (i j : Fin 2) : (exMlp c).adj i j = if i = 0 ∧ j = 1 then 2 else 0 := by
  have h : Notears.mlpA (exMlp c).fc1 i j = if i = 0 ∧ j = 1 then 4 else 0 := by
    unfold Notears.mlpA Mlp.fc1
    change (∑ l : Fin 1, _) = _
    rw [Fin.sum_univ_one]
    fin_cases i <;> fin_cases j <;> norm_num [exMlp, at']
  unfold Mlp.adj
  rw [h]
  split
  · rw [show (4 : ℝ) = 2 ^ 2 by norm_num, Real.sqrt_sq (by norm_num)]
  · exact Real.sqrt_zero

theorem exMlp_forward (c : ℝ) (act : ℝ → ℝ) (x : Nat → ℝ) : (exMlp c).forward act x 1 = act (x 0 * 2 + 1) * c := by
  unfold Mlp.forward
  simp [exMlp, layerDims, layersForward, localForward, Mlp.hidden, linear, at', Finset.sum_range_succ]

/-- The estimate of variable 1 does not use variable 1, and it does use variable 0. -/
example : (∀ x x' : Nat → ℝ, x 0 = x' 0 → (exMlp 1).forward Real.sin x 1 = (exMlp 1).forward Real.sin x' 1) ∧
    (exMlp 1).forward id (fun _ => 0) 1 ≠ (exMlp 1).forward id (fun _ => 1) 1 := by
  refine ⟨fun x x' h => c131_mlp (exMlp 1) Real.sin x x' (1 : Fin 2) (by decide) fun i hi => ?_, ?_⟩
  · rw [show (exMlp 1).adj i _ = _ from exMlp_adj 1 i 1] at hi
    have e : i = (0 : Fin 2) := by
      by_contra hne
      exact hi (if_neg fun q => hne q.1)
    subst e
    exact h
  · rw [exMlp_forward, exMlp_forward]; norm_num

/-- C131, the converse is false for the network: a later layer can drop what the first layer takes in, so that an edge is reported
for a variable the estimate does not depend on. -/
theorem c131_converse_false : ∃ (p : Mlp ℝ) (i j : Fin p.d), p.adj i j = 2 ∧ ∀ act x x', p.forward act x j = p.forward act x' j := by
  refine ⟨exMlp 0, (0 : Fin 2), (1 : Fin 2), by rw [exMlp_adj]; simp, fun act x x' => ?_⟩
  change (exMlp 0).forward act x 1 = (exMlp 0).forward act x' 1
  rw [exMlp_forward, exMlp_forward]; simp

theorem sum_range_mul (f : Nat → ℝ) (k : Nat) : ∀ d, ∑ q ∈ range (d * k), f q = ∑ i ∈ range d, ∑ l ∈ range k, f (i * k + l)
  | 0 => by simp
  | d + 1 => by rw [Nat.add_mul, one_mul, Finset.sum_range_add, sum_range_mul f k d, Finset.sum_range_succ]

/-- The estimate of the basis expansion, variable by variable. -/
theorem sob_forward (p : Sob ℝ) (x : Nat → ℝ) (j : Fin p.d) :
    p.forward x j = ∑ i : Fin p.d, ∑ l : Fin p.k, p.fc1 j i l * (mu l * Real.sin (x i / mu l)) := by
  have e : ∀ w : List ℝ, linear (p.d * p.k) w [] (basis p.k x) j =
      ∑ i : Fin p.d, ∑ l : Fin p.k, at' w ((j * p.d + i) * p.k + l) * (mu l * Real.sin (x i / mu l)) := by
    intro w
    unfold linear
    rw [sum_range_mul, Finset.sum_range]
    simp only [at', List.getD_nil, add_zero]
    refine Finset.sum_congr rfl fun i _ => ?_
    rw [Finset.sum_range]
    refine Finset.sum_congr rfl fun l _ => ?_
    have hk : 0 < p.k := l.pos
    unfold basis
    have hm : (i * p.k + l) % p.k = l := by rw [mul_comm, Nat.mul_add_mod]; exact Nat.mod_eq_of_lt l.isLt
    have hq : (i * p.k + l) / p.k = i := by rw [mul_comm, Nat.mul_add_div hk, Nat.div_eq_of_lt l.isLt, add_zero]
    rw [hm, hq, mul_comm, show (j : Nat) * (p.d * p.k) + (i * p.k + l) = (j * p.d + i) * p.k + l by ring]
  unfold Sob.forward Sob.forwardBases
  rw [e, e, ← Finset.sum_sub_distrib]
  refine Finset.sum_congr rfl fun i _ => ?_
  rw [← Finset.sum_sub_distrib]
  refine Finset.sum_congr rfl fun l _ => ?_
  unfold Sob.fc1
  ring

theorem mu_pos (l : Nat) : 0 < mu l := by unfold mu; positivity

theorem inv_mu (l : Nat) : 1 / mu l = (2 * l + 1) * (Real.pi / 2) := by
  unfold mu
  have := Real.pi_pos
  field_simp

/-- Sines of different frequencies are linearly independent. -/
theorem sines_independent {k : Nat} {c : Fin k → ℝ} (h : ∀ t : ℝ, ∑ l, c l * Real.sin (t / mu l) = 0) : c = 0 := by
  rcases Nat.eq_zero_or_pos k with rfl | hk
  · funext l; exact l.elim0
  have hk' : (0 : ℝ) < k := by exact_mod_cast hk
  set f : Fin k → ℝ := fun l => 2 * Real.cos (1 / k / mu l) with hf
  have hp : ∀ (n : Nat) (t : ℝ), ∑ l, c l * f l ^ n * Real.sin (t / mu l) = 0 := by
    intro n
    induction n with
    | zero => simpa using h
    | succ n ih =>
      intro t
      have h2 := congrArg₂ (· + ·) (ih (t + 1 / k)) (ih (t - 1 / k))
      simp only [add_zero] at h2
      rw [← h2, ← Finset.sum_add_distrib]
      refine Finset.sum_congr rfl fun l _ => ?_
      rw [add_div, sub_div, Real.sin_add, Real.sin_sub, hf]
      ring
  have hinj : Function.Injective f := by
    intro a b hab
    have hmem : ∀ l : Fin k, 1 / (k : ℝ) / mu l ∈ Set.Icc 0 Real.pi := by
      intro l
      have hl : (l : ℝ) + 1 ≤ k := by exact_mod_cast l.isLt
      rw [div_div, mul_comm, ← div_div, inv_mu]
      refine ⟨by positivity, ?_⟩
      rw [div_le_iff₀ hk']
      nlinarith [Real.pi_pos]
    have := Real.injOn_cos (hmem a) (hmem b) (by simpa [hf] using hab)
    rw [div_div, div_div, mul_comm, mul_comm _ (mu b), ← div_div, ← div_div, inv_mu, inv_mu, div_left_inj' hk'.ne'] at this
    have h2 : (2 * (a : ℝ) + 1) = 2 * b + 1 := mul_right_cancel₀ (by positivity) this
    have h3 : (a : ℝ) = b := by linarith
    exact Fin.ext (by exact_mod_cast h3)
  have hv := Matrix.eq_zero_of_forall_pow_sum_mul_pow_eq_zero (v := fun l => c l * Real.sin (1 / mu l)) hinj fun n => by
    rw [← hp n 1]
    exact Finset.sum_congr rfl fun l _ => by ring
  funext l
  have hl := congrFun hv l
  rcases mul_eq_zero.1 hl with h0 | h0
  · exact h0
  · rw [inv_mu, show (2 * (l : ℝ) + 1) * (Real.pi / 2) = l * Real.pi + Real.pi / 2 by ring, Real.sin_add_pi_div_two] at h0
    have := Real.cos_nat_mul_pi l
    rw [h0] at this
    exact absurd this.symm (pow_ne_zero _ (by norm_num))

/-- C131, the basis expansion: `W[i, j] = 0` exactly if the estimate of variable `j` does not depend on variable `i`. -/
theorem c131_sobolev (p : Sob ℝ) (i j : Fin p.d) :
    p.adj i j = 0 ↔ ∀ x x' : Nat → ℝ, (∀ q, q ≠ (i : Nat) → x q = x' q) → p.forward x j = p.forward x' j := by
  rw [sob_adj_eq_zero]
  constructor
  · intro h x x' hx
    rw [sob_forward, sob_forward]
    refine Finset.sum_congr rfl fun q _ => Finset.sum_congr rfl fun l _ => ?_
    by_cases hq : q = i
    · rw [hq, h]; simp
    · rw [hx q fun e => hq (Fin.ext e)]
  · intro h
    have hs : (fun l : Fin p.k => p.fc1 j i l * mu l) = 0 := by
      apply sines_independent
      intro t
      have := h (fun q => if q = i then t else 0) (fun _ => 0) fun q hq => if_neg hq
      rw [sob_forward, sob_forward, Finset.sum_eq_single i] at this
      · simp only [if_true, zero_div, Real.sin_zero, mul_zero, Finset.sum_const_zero] at this
        rw [← this]
        exact Finset.sum_congr rfl fun l _ => by ring
      · intro q _ hq
        rw [if_neg fun e => hq (Fin.ext e)]
        simp
      · intro hi; exact absurd (Finset.mem_univ i) hi
    intro l
    exact (mul_eq_zero.1 (congrFun hs l)).resolve_right (mu_pos l).ne'

/-- Two variables, two bases: variable 0 enters the estimate of variable 1 through the second basis. -/
def exSob : Sob ℝ := ⟨2, 2, [0, 0, 0, 0, 0, 3, 0, 0], [0, 0, 0, 0, 0, 1, 0, 0]⟩

example : exSob.fc1 (1 : Fin 2) (0 : Fin 2) (1 : Fin 2) = 2 ∧ exSob.fc1 (1 : Fin 2) (1 : Fin 2) (0 : Fin 2) = 0 := by
  constructor <;> norm_num [Sob.fc1, exSob, at']

/-- Some change of variable 0 alone changes the estimate of variable 1; no change of variable 1 alone does. -/
example : (∃ x x' : Nat → ℝ, (∀ q, q ≠ 0 → x q = x' q) ∧ exSob.forward x 1 ≠ exSob.forward x' 1) ∧
    ∀ x x' : Nat → ℝ, (∀ q, q ≠ 1 → x q = x' q) → exSob.forward x 1 = exSob.forward x' 1 := by
  constructor
  · by_contra h
    push Not at h
    have := (sob_adj_eq_zero exSob (0 : Fin 2) (1 : Fin 2)).1 ((c131_sobolev exSob (0 : Fin 2) (1 : Fin 2)).2 h) (1 : Fin 2)
    norm_num [Sob.fc1, exSob, at'] at this
  · refine (c131_sobolev exSob (1 : Fin 2) (1 : Fin 2)).1 ((sob_adj_eq_zero exSob (1 : Fin 2) (1 : Fin 2)).2 fun l => ?_)
    revert l
    change ∀ l : Fin 2, exSob.fc1 (1 : Fin 2) (1 : Fin 2) l = 0
    intro l
    fin_cases l <;> norm_num [Sob.fc1, exSob, at']

/-! ### C132: the bounds -/

/-- A value within a bound. -/
def Within (b : Bound ℝ) (x : ℝ) : Prop := (∀ l, b.1 = some l → l ≤ x) ∧ ∀ u, b.2 = some u → x ≤ u

/-- Every entry of a vector within its bound. -/
def Box (bs : List (Bound ℝ)) (v : List ℝ) : Prop := List.Forall₂ Within bs v

theorem mlpBounds_inner (d m1 j : Nat) : ((List.range m1).flatMap fun _ => (List.range d).map fun i =>
    if i = j then ((some 0, some 0) : Bound ℝ) else (some 0, none)).length = m1 * d :=
  flatMap_length _ d m1 fun _ => by simp

theorem mlpBounds_length (d m1 : Nat) : (mlpBounds (K := ℝ) d m1).length = d * m1 * d := by
  unfold mlpBounds
  rw [flatMap_length _ (m1 * d) d fun j => mlpBounds_inner d m1 j, mul_assoc]

/-- C132, the layout for the network: the bound of the weight from variable `i` to unit `l` of variable `j`. -/
theorem c132_mlp_layout {d m1 j l i : Nat} (hj : j < d) (hl : l < m1) (hi : i < d) :
    (mlpBounds (K := ℝ) d m1)[(j * m1 + l) * d + i]? = some (if i = j then (some 0, some 0) else (some 0, none)) := by
  unfold mlpBounds
  have h1 : l * d + i < m1 * d := by nlinarith
  rw [show (j * m1 + l) * d + i = j * (m1 * d) + (l * d + i) by ring,
    range_flatMap_getElem? (fun j => mlpBounds_inner d m1 j) hj h1, range_flatMap_getElem? (fun _ => by simp) hl hi]
  simp [hi]

theorem sobBounds_inner (d k j : Nat) : ((List.range d).flatMap fun i => (List.range k).map fun _ =>
    if i = j then ((some 0, some 0) : Bound ℝ) else (some 0, none)).length = d * k :=
  flatMap_length _ k d fun _ => by simp

theorem sobBounds_length (d k : Nat) : (sobBounds (K := ℝ) d k).length = d * (d * k) := by
  unfold sobBounds
  rw [flatMap_length _ (d * k) d fun j => sobBounds_inner d k j]

/-- C132, the layout for the basis expansion. -/
theorem c132_sobolev_layout {d k j l i : Nat} (hj : j < d) (hl : l < k) (hi : i < d) :
    (sobBounds (K := ℝ) d k)[(j * d + i) * k + l]? = some (if i = j then (some 0, some 0) else (some 0, none)) := by
  unfold sobBounds
  have h1 : i * k + l < d * k := by nlinarith
  rw [show (j * d + i) * k + l = j * (d * k) + (i * k + l) by ring,
    range_flatMap_getElem? (fun j => sobBounds_inner d k j) hj h1, range_flatMap_getElem? (fun _ => by simp) hi hl]
  simp [hl]

/-- C132, the layout for the linear model. -/
theorem c132_linear_layout {d j i : Nat} (hj : j < d) (hi : i < d) :
    (linBounds (K := ℝ) d)[j * d + i]? = some (if i = j then (some 0, some 0) else (some 0, none)) := by
  unfold linBounds
  rw [range_flatMap_getElem? (fun j => by simp) hj hi]
  simp [hi]

theorem box_get {bs : List (Bound ℝ)} {t : List ℝ} (h : Box bs t) {q : Nat} {b : Bound ℝ} (hb : bs[q]? = some b) : Within b (at' t q) := by
  obtain ⟨hlen, hget⟩ := List.forall₂_iff_get.1 h
  obtain ⟨hq, e⟩ := List.getElem?_eq_some_iff.1 hb
  have := hget q hq (hlen ▸ hq)
  have ht : at' t q = t[q]'(hlen ▸ hq) := by simp [at', hlen ▸ hq]
  rw [ht, ← e]
  exact this

theorem within_fixed {x : ℝ} (h : Within (some 0, some 0) x) : x = 0 := le_antisymm (h.2 0 rfl) (h.1 0 rfl)

/-- The pieces of a flat vector within the flat bounds are within the bounds of the parameters. -/
theorem box_pieces {sizes : List Nat} {as : List (Option (List (Bound ℝ)))} (hlen : as.length = sizes.length)
    (ha : ∀ (n : Nat) b, (n, some b) ∈ sizes.zip as → b.length = n) {v : List ℝ} (h : Box (gatherBounds sizes as) v) :
    ∃ ts, distribute sizes v = .ok ts ∧ gather ts = v ∧ ts.map List.length = sizes ∧
      List.Forall₂ Box (List.zipWith (fun n b => b.getD (List.replicate n (none, none))) sizes as) ts := by
  have hm : (List.zipWith (fun n b => b.getD (List.replicate n ((none, none) : Bound ℝ))) sizes as).map List.length = sizes := by
    clear h
    induction sizes generalizing as with
    | nil => simp
    | cons n ns ih =>
      cases as with
      | nil => simp at hlen
      | cons a as =>
        simp only [List.zipWith_cons_cons, List.map_cons, List.cons.injEq]
        refine ⟨?_, ih (by simpa using hlen) fun n' b hb => ha n' b (List.mem_cons_of_mem _ hb)⟩
        cases a with
        | none => simp
        | some b => exact ha n b (List.mem_cons_self ..)
  have hv : v.length = sizes.sum := by
    rw [← h.length_eq]
    unfold gatherBounds
    rw [List.length_flatten, hm]
  obtain ⟨ts, e, hf, hl⟩ := distribute_ok (sizes := sizes) (v := v) hv.ge
  rw [← hv, List.take_length] at hf
  refine ⟨ts, e, hf, hl, forall₂_pieces (hm.trans hl.symm) ?_⟩
  rw [hf]
  exact h

/-- What the bounds say about the weights of a network: nothing is negative and no variable enters its own network. -/
structure MlpOk (p : Mlp ℝ) : Prop where
  pos : ∀ q < p.d * p.m1 * p.d, 0 ≤ at' p.posW q
  neg : ∀ q < p.d * p.m1 * p.d, 0 ≤ at' p.negW q
  own : ∀ (j : Fin p.d) (l : Fin p.m1), p.fc1 j l j = 0

theorem index_split {d m1 q : Nat} (hq : q < d * m1 * d) : ∃ j l i, j < d ∧ l < m1 ∧ i < d ∧ q = (j * m1 + l) * d + i := by
  have hd : 0 < d := by rcases Nat.eq_zero_or_pos d with rfl | h; · simp at hq
                        · exact h
  have hm : 0 < m1 := by rcases Nat.eq_zero_or_pos m1 with rfl | h; · simp at hq
                         · exact h
  refine ⟨q / d / m1, q / d % m1, q % d, ?_, Nat.mod_lt _ hm, Nat.mod_lt _ hd, ?_⟩
  · rw [Nat.div_div_eq_div_mul, Nat.div_lt_iff_lt_mul (by positivity)]
    calc q < d * m1 * d := hq
      _ = d * (d * m1) := by ring
  · rw [Nat.div_add_mod' (q / d) m1, Nat.div_add_mod' q d]

theorem bounds_ok {d m1 : Nat} {rest : List Nat} {pw pb nw nb : List ℝ} {ls : List (List ℝ × List ℝ)} (h1 : Box (mlpBounds d m1) pw)
    (h2 : Box (mlpBounds d m1) nw) : MlpOk ⟨d, m1, rest, pw, pb, nw, nb, ls⟩ := by
  have nonneg : ∀ {w : List ℝ}, Box (mlpBounds d m1) w → ∀ q < d * m1 * d, 0 ≤ at' w q := by
    intro w hw q hq
    obtain ⟨j, l, i, hj, hl, hi, rfl⟩ := index_split hq
    have := box_get hw (c132_mlp_layout hj hl hi)
    split at this
    · exact this.1 0 rfl
    · exact this.1 0 rfl
  refine ⟨nonneg h1, nonneg h2, fun j l => ?_⟩
  have e1 := box_get h1 (c132_mlp_layout j.isLt l.isLt j.isLt)
  have e2 := box_get h2 (c132_mlp_layout j.isLt l.isLt j.isLt)
  rw [if_pos rfl] at e1 e2
  unfold Mlp.fc1
  change at' pw ((j * m1 + l) * d + j) - at' nw ((j * m1 + l) * d + j) = 0
  rw [within_fixed e1, within_fixed e2, sub_zero]

theorem mlpAttrs_length (d m1 : Nat) (rest : List Nat) (bias : Bool) :
    (mlpAttrs (K := ℝ) d m1 rest bias).length = (mlpSizes d m1 rest bias).length := by
  unfold mlpAttrs mlpSizes
  cases bias <;> simp [List.length_flatMap]

theorem zip_none {α β : Type} : ∀ {ls : List α} {ms : List (Option β)} {n : α} {b : β}, (∀ a ∈ ms, a = none) → (n, some b) ∉ ls.zip ms := by
  intro ls ms n b h hm
  exact absurd (h _ (List.of_mem_zip hm).2) (by simp)

theorem mlpAttrs_spec (d m1 : Nat) (rest : List Nat) (bias : Bool) (n : Nat) (b : List (Bound ℝ))
    (h : (n, some b) ∈ (mlpSizes d m1 rest bias).zip (mlpAttrs d m1 rest bias)) : b.length = n := by
  have hnone : ∀ c : Bool, ∀ a ∈ (layerDims m1 rest).flatMap fun _ => if c then [none, none] else [(none : Option (List (Bound ℝ)))], a = none := by
    intro c a ha
    obtain ⟨q, -, hq⟩ := List.mem_flatMap.1 ha
    cases c <;> simpa using hq
  unfold mlpSizes mlpAttrs at h
  cases bias
  · simp only [Bool.false_eq_true, if_false, List.cons_append, List.nil_append, List.zip_cons_cons, List.mem_cons, Prod.mk.injEq,
      Option.some.injEq] at h
    rcases h with ⟨rfl, rfl⟩ | ⟨rfl, rfl⟩ | h
    · exact mlpBounds_length d m1
    · exact mlpBounds_length d m1
    · exact absurd h (zip_none (hnone false))
  · simp only [if_true, List.cons_append, List.nil_append, List.zip_cons_cons, List.mem_cons, Prod.mk.injEq, Option.some.injEq,
      reduceCtorEq, and_false, false_or] at h
    rcases h with ⟨rfl, rfl⟩ | ⟨rfl, rfl⟩ | h
    · exact mlpBounds_length d m1
    · exact mlpBounds_length d m1
    · exact absurd h (zip_none (hnone true))

/-- C132, the network: every flat vector within the flat bounds makes a network in which no first-layer weight is negative, no
variable has an edge to itself, and no estimate uses the variable it estimates. -/
theorem c132_mlp (d m1 : Nat) (rest : List Nat) (bias : Bool) (hm : 0 < m1) {v : List ℝ}
    (h : Box (gatherBounds (mlpSizes d m1 rest bias) (mlpAttrs d m1 rest bias)) v) :
    ∃ ts, distribute (mlpSizes d m1 rest bias) v = .ok ts ∧ gather ts = v ∧
      (∀ q < d * m1 * d, 0 ≤ at' (mlpOf d m1 rest bias ts).posW q ∧ 0 ≤ at' (mlpOf d m1 rest bias ts).negW q) ∧
      ∀ j : Fin d, (mlpOf d m1 rest bias ts).adj j j = 0 ∧ ∀ act (x x' : Nat → ℝ), (∀ q, q ≠ (j : Nat) → x q = x' q) →
        (mlpOf d m1 rest bias ts).forward act x j = (mlpOf d m1 rest bias ts).forward act x' j := by
  obtain ⟨ts, e, hg, -, hb⟩ := box_pieces (mlpAttrs_length d m1 rest bias) (mlpAttrs_spec d m1 rest bias) h
  have ok : MlpOk (mlpOf d m1 rest bias ts) := by
    unfold mlpSizes mlpAttrs at hb
    cases bias
    · simp only [Bool.false_eq_true, if_false, List.cons_append, List.nil_append, List.zipWith_cons_cons, Option.getD_some] at hb
      obtain ⟨t1, r1, h1, hb1, rfl⟩ := List.forall₂_cons_left_iff.1 hb
      obtain ⟨t2, r2, h2, -, rfl⟩ := List.forall₂_cons_left_iff.1 hb1
      exact bounds_ok h1 h2
    · simp only [if_true, List.cons_append, List.nil_append, List.zipWith_cons_cons, Option.getD_some, Option.getD_none] at hb
      obtain ⟨t1, r1, h1, hb1, rfl⟩ := List.forall₂_cons_left_iff.1 hb
      obtain ⟨t2, r2, -, hb2, rfl⟩ := List.forall₂_cons_left_iff.1 hb1
      obtain ⟨t3, r3, h3, -, rfl⟩ := List.forall₂_cons_left_iff.1 hb2
      exact bounds_ok h1 h3
  have hadj : ∀ j : Fin d, (mlpOf d m1 rest bias ts).adj j j = 0 := fun j =>
    (mlp_adj_eq_zero (mlpOf d m1 rest bias ts) j j).2 (ok.own j)
  refine ⟨ts, e, hg, fun q hq => ⟨ok.pos q hq, ok.neg q hq⟩, fun j => ⟨hadj j, fun act x x' hx => ?_⟩⟩
  refine c131_mlp (mlpOf d m1 rest bias ts) act x x' j hm fun i hi => hx i fun e => hi ?_
  have : i = j := Fin.ext e
  rw [this]
  exact hadj j

/-- C132, the basis expansion. -/
theorem c132_sobolev (d k : Nat) {v : List ℝ} (h : Box (gatherBounds (sobSizes d k) (sobAttrs d k)) v) :
    ∃ ts, distribute (sobSizes d k) v = .ok ts ∧ gather ts = v ∧
      ∀ j : Fin d, (sobOf d k ts).adj j j = 0 ∧ ∀ x x' : Nat → ℝ, (∀ q, q ≠ (j : Nat) → x q = x' q) →
        (sobOf d k ts).forward x j = (sobOf d k ts).forward x' j := by
  obtain ⟨ts, e, hg, -, hb⟩ := box_pieces (sizes := sobSizes d k) (as := sobAttrs d k) rfl (by
    intro n b hm
    simp only [sobSizes, sobAttrs, List.zip_cons_cons, List.zip_nil_right, List.mem_cons, Prod.mk.injEq, Option.some.injEq,
      List.not_mem_nil, or_false, or_self] at hm
    rw [hm.1, hm.2]
    exact sobBounds_length d k) h
  simp only [sobSizes, sobAttrs, List.zipWith_cons_cons, Option.getD_some] at hb
  obtain ⟨t1, r1, h1, hb1, rfl⟩ := List.forall₂_cons_left_iff.1 hb
  obtain ⟨t2, r2, h2, -, rfl⟩ := List.forall₂_cons_left_iff.1 hb1
  have hadj : ∀ j : Fin d, (sobOf d k (t1 :: t2 :: r2)).adj j j = 0 := by
    intro j
    refine (sob_adj_eq_zero (sobOf d k (t1 :: t2 :: r2)) j j).2 fun l => ?_
    have e1 := box_get h1 (c132_sobolev_layout j.isLt l.isLt j.isLt)
    have e2 := box_get h2 (c132_sobolev_layout j.isLt l.isLt j.isLt)
    rw [if_pos rfl] at e1 e2
    change at' t1 ((j * d + j) * k + l) - at' t2 ((j * d + j) * k + l) = 0
    rw [within_fixed e1, within_fixed e2, sub_zero]
  exact ⟨_, e, hg, fun j => ⟨hadj j, (c131_sobolev (sobOf d k (t1 :: t2 :: r2)) j j).1 (hadj j)⟩⟩

/-- C132: after `step`, with any optimiser that stays within the bounds it is given, the network is as in `c132_mlp`. -/
theorem c132_step (scipy : (List ℝ → Except Err (ℝ × List ℝ)) → List ℝ → List (Bound ℝ) → Except Err (List ℝ))
    (hs : ∀ f x0 bs sol, scipy f x0 bs = .ok sol → Box bs sol) (d m1 : Nat) (rest : List Nat) (bias : Bool) (hm : 0 < m1)
    (loss : List (List ℝ) → ℝ × List (Option (List ℝ))) {ps ts : List (List ℝ)}
    (h : step scipy (mlpSizes d m1 rest bias) (mlpAttrs d m1 rest bias) loss ps = .ok ts) :
    ∀ j : Fin d, (mlpOf d m1 rest bias ts).adj j j = 0 ∧ ∀ act (x x' : Nat → ℝ), (∀ q, q ≠ (j : Nat) → x q = x' q) →
      (mlpOf d m1 rest bias ts).forward act x j = (mlpOf d m1 rest bias ts).forward act x' j := by
  unfold step at h
  cases e : scipy (wrapped (mlpSizes d m1 rest bias) loss) (gather ps) (gatherBounds (mlpSizes d m1 rest bias) (mlpAttrs d m1 rest bias)) with
  | error x => rw [e] at h; exact absurd h (by simp [bind, Except.bind])
  | ok sol =>
    rw [e] at h
    simp only [bind, Except.bind] at h
    obtain ⟨ts', e', -, -, q⟩ := c132_mlp d m1 rest bias hm (hs _ _ _ _ e)
    rw [e'] at h
    injection h with h
    rw [← h]
    exact q

/-- C132, the penalty: within the bounds the first-layer penalty is at least the sum of the absolute weights, with equality exactly if no
weight is split in two. -/
theorem c132_l1 : ∀ (a b : List ℝ), (∀ x ∈ a, 0 ≤ x) → (∀ x ∈ b, 0 ≤ x) →
    (List.zipWith (fun x y => |x - y|) a b).sum ≤ l1Reg a b ∧
      ((List.zipWith (fun x y => |x - y|) a b).sum = l1Reg a b ↔ ∀ q ∈ a.zip b, q.1 = 0 ∨ q.2 = 0)
  | [], _, _, _ => by simp [l1Reg]
  | _ :: _, [], _, _ => by simp [l1Reg]
  | x :: a, y :: b, ha, hb => by
    obtain ⟨h1, h2⟩ := c132_l1 a b (fun z hz => ha z (List.mem_cons_of_mem _ hz)) fun z hz => hb z (List.mem_cons_of_mem _ hz)
    have hx := ha x (List.mem_cons_self ..)
    have hy := hb y (List.mem_cons_self ..)
    have hle : |x - y| ≤ x + y := abs_sub_le_iff.2 ⟨by linarith, by linarith⟩
    have heq : |x - y| = x + y ↔ x = 0 ∨ y = 0 := by
      constructor
      · intro h
        rcases abs_cases (x - y) with ⟨e, -⟩ | ⟨e, -⟩
        · right; linarith
        · left; linarith
      · rintro (rfl | rfl)
        · rw [zero_sub, abs_neg, abs_of_nonneg hy, zero_add]
        · rw [sub_zero, abs_of_nonneg hx, add_zero]
    have hl : l1Reg (x :: a) (y :: b) = x + y + l1Reg a b := by simp [l1Reg]
    rw [hl]
    simp only [List.zipWith_cons_cons, List.sum_cons, List.zip_cons_cons, List.forall_mem_cons]
    refine ⟨by linarith, ?_⟩
    rw [← heq, ← h2]
    constructor
    · intro h; constructor <;> linarith
    · rintro ⟨h, h'⟩; linarith

/-- C132 needs the bounds: without them the penalty can be negative, and the initial weights of `nn.Linear` are not within them. -/
example : l1Reg [(-1 : ℝ), 0] [0, -2] = -3 := by norm_num [l1Reg]

/-- Two variables, one hidden unit, one local layer, with biases: the flat bounds and a vector within them. -/
example : Box (gatherBounds (mlpSizes 2 1 [1] true) (mlpAttrs 2 1 [1] true))
    [0, 3, 2, 0, -1, 5, 0, 1, 0, 0, 7, -7, -1, -2, 4, 4] ∧ (mlpSizes 2 1 [1] true).sum = 16 := by
  refine ⟨?_, by decide⟩
  norm_num [Box, gatherBounds, mlpSizes, mlpAttrs, layerDims, mlpBounds, List.range_succ, Within, List.replicate]
  simp

end Cdmir.Net
