import Verif.Model.Performance
import Verif.Props.GraphCore
import Mathlib.Tactic.Ring
import Mathlib.Tactic.FieldSimp
import Mathlib.Tactic.NormNum
import Mathlib.Tactic.Linarith
import Mathlib.Tactic.Positivity
import Mathlib.Data.Finset.Prod

/-! C149: `get_performance`. -/

namespace Cdmir
namespace Perf
open Finset
variable {α : Type} [DecidableEq α]

/-! ### sklearn's checks -/

theorem two_le {l : List ℚ} {a b : ℚ} (ha : a ∈ l) (hb : b ∈ l) (h : a ≠ b) : 2 ≤ l.length := by
  have : ({a, b} : Finset ℚ) ⊆ l.toFinset := by
    intro x hx
    simp only [mem_insert, mem_singleton] at hx
    rcases hx with rfl | rfl <;> simpa
  calc 2 = ({a, b} : Finset ℚ).card := (card_pair h).symm
    _ ≤ l.toFinset.card := card_le_card this
    _ ≤ l.length := l.toFinset_card_le

theorem three_le {l : List ℚ} {a b c : ℚ} (ha : a ∈ l) (hb : b ∈ l) (hc : c ∈ l) (h : a ≠ b) (h' : a ≠ c) (h'' : b ≠ c) : 3 ≤ l.length := by
  have : ({a, b, c} : Finset ℚ) ⊆ l.toFinset := by
    intro x hx
    simp only [mem_insert, mem_singleton] at hx
    rcases hx with rfl | rfl | rfl <;> simpa
  calc 3 = ({a, b, c} : Finset ℚ).card := (card_eq_three.2 ⟨a, b, c, h, h', h'', rfl⟩).symm
    _ ≤ l.toFinset.card := card_le_card this
    _ ≤ l.length := l.toFinset_card_le

theorem le_two {l : List ℚ} (hn : l.Nodup) {a b : ℚ} (h : ∀ x ∈ l, x = a ∨ x = b) : l.length ≤ 2 := by
  rw [← List.toFinset_card_of_nodup hn]
  refine (card_le_card (t := {a, b}) fun x hx => ?_).trans card_le_two
  simpa using h x (List.mem_toFinset.1 hx)

theorem le_one {l : List ℚ} (hn : l.Nodup) {a : ℚ} (h : ∀ x ∈ l, x = a) : l.length ≤ 1 := by
  rw [← List.toFinset_card_of_nodup hn]
  refine (card_le_card (t := {a}) fun x hx => ?_).trans (card_singleton a).le
  simpa using h x (List.mem_toFinset.1 hx)

theorem checkTargets_cases (t : List ℚ) (e : List Bool) : checkTargets t e = .ok () ∨ checkTargets t e = .error .value := by
  unfold checkTargets
  dsimp only
  split_ifs <;> simp [pure, Except.pure]

theorem checkTargets_iff {t : List ℚ} {e : List Bool} (he : e ≠ []) (hl : t.length = e.length) : checkTargets t e = .ok () ↔
    (∀ q ∈ t, q.den = 1) ∧ ((∀ q ∈ t, q = 0 ∨ q = 1) ∨ ∃ c, (∀ q ∈ t, q = c ∨ q = 1) ∧ ∀ b ∈ e, b = true) := by
  unfold checkTargets
  rw [if_neg (by simpa using hl)]
  by_cases hd : t.any fun q => q.den ≠ 1
  · rw [if_pos hd]
    have : ¬ ∀ q ∈ t, q.den = 1 := fun h => by
      obtain ⟨q, hq, hq'⟩ := List.any_eq_true.1 hd
      simp [h q hq] at hq'
    simp [this]
  rw [if_neg hd]
  have hd : ∀ q ∈ t, q.den = 1 := fun q hq => by
    by_contra h
    exact hd (List.any_eq_true.2 ⟨q, hq, by simpa using h⟩)
  have key : ∀ x, x ∈ (t ++ e.map fun b => if b then (1 : ℚ) else 0).dedup ↔ x ∈ t ∨ (x = 1 ∧ true ∈ e) ∨ (x = 0 ∧ false ∈ e) := fun x => by
    rw [List.mem_dedup, List.mem_append, List.mem_map]
    refine or_congr_right ⟨fun ⟨b, hb, h⟩ => ?_, fun h => ?_⟩
    · cases b
      · exact .inr ⟨by simpa using h.symm, hb⟩
      · exact .inl ⟨by simpa using h.symm, hb⟩
    · rcases h with ⟨rfl, h⟩ | ⟨rfl, h⟩
      · exact ⟨true, h, rfl⟩
      · exact ⟨false, h, rfl⟩
  have hn : ((t ++ e.map fun b => if b then (1 : ℚ) else 0).dedup).Nodup := List.nodup_dedup _
  generalize (t ++ e.map fun b => if b then (1 : ℚ) else 0).dedup = L at key hn
  dsimp only
  have goal : (if 2 < L.length then Except.error Err.value else if 1 ∉ L ∧ 2 ≤ L.length then .error .value else pure ()) = Except.ok () ↔
      L.length ≤ 2 ∧ (1 ∈ L ∨ L.length < 2) := by
    by_cases h1 : 2 < L.length
    · rw [if_pos h1]
      simp [h1]
    · rw [if_neg h1]
      by_cases h2 : 1 ∉ L ∧ 2 ≤ L.length
      · rw [if_pos h2]
        simp [h2.1, h2.2]
      · rw [if_neg h2]
        simp only [pure, Except.pure, true_iff]
        refine ⟨by omega, ?_⟩
        by_contra h3
        push Not at h3
        exact h2 ⟨h3.1, h3.2⟩
  rw [goal]
  constructor
  · rintro ⟨h2, h1⟩
    refine ⟨hd, ?_⟩
    by_cases hz : ∀ q ∈ t, q = 0 ∨ q = 1
    · exact .inl hz
    push Not at hz
    obtain ⟨c, hc, hc0, hc1⟩ := hz
    have hcL : c ∈ L := (key c).2 (.inl hc)
    obtain ⟨b, hb⟩ := List.exists_mem_of_ne_nil e he
    have h2' : 2 ≤ L.length := by
      cases b
      · exact two_le hcL ((key 0).2 (.inr (.inr ⟨rfl, hb⟩))) hc0
      · exact two_le hcL ((key 1).2 (.inr (.inl ⟨rfl, hb⟩))) hc1
    have h1 : 1 ∈ L := h1.resolve_right (by omega)
    have hall : ∀ x ∈ L, x = c ∨ x = 1 := fun x hx => by
      by_contra h
      push Not at h
      have := three_le hx hcL h1 h.1 h.2 hc1
      omega
    refine .inr ⟨c, fun q hq => hall q ((key q).2 (.inl hq)), fun b hb => ?_⟩
    cases b
    · rcases hall 0 ((key 0).2 (.inr (.inr ⟨rfl, hb⟩))) with h | h
      · exact absurd h.symm hc0
      · norm_num at h
    · rfl
  · rintro ⟨-, h | ⟨c, h, ht⟩⟩
    · have hall : ∀ x ∈ L, x = 0 ∨ x = 1 := fun x hx => by
        rcases (key x).1 hx with h' | ⟨rfl, -⟩ | ⟨rfl, -⟩
        · exact h x h'
        · exact .inr rfl
        · exact .inl rfl
      refine ⟨le_two hn hall, ?_⟩
      by_cases h1 : 1 ∈ L
      · exact .inl h1
      · refine .inr (Nat.lt_succ_of_le (le_one (a := 0) hn fun x hx => (hall x hx).resolve_right fun h => h1 (h ▸ hx)))
    · obtain ⟨b, hb⟩ := List.exists_mem_of_ne_nil e he
      have hb' := ht b hb
      subst hb'
      refine ⟨le_two (a := c) (b := 1) hn fun x hx => ?_, .inl ((key 1).2 (.inr (.inl ⟨rfl, hb⟩)))⟩
      rcases (key x).1 hx with h' | ⟨rfl, -⟩ | ⟨rfl, h'⟩
      · exact h x h'
      · exact .inr rfl
      · exact absurd (ht false h') (by simp)

/-! ### counts -/

theorem mem_places {n : Nat} {p : Nat × Nat} : p ∈ places n ↔ p.1 < n ∧ p.2 < n := by
  unfold places
  obtain ⟨a, b⟩ := p
  change (a, b) ∈ List.product _ _ ↔ _
  rw [List.pair_mem_product]
  simp

theorem places_nodup (n : Nat) : (places n).Nodup := List.Nodup.product List.nodup_range List.nodup_range

theorem places_toFinset (n : Nat) : (places n).toFinset = range n ×ˢ range n := by
  ext p
  simp [mem_places]

theorem places_ne {n : Nat} (h : 0 < n) : places n ≠ [] := List.ne_nil_of_mem (a := (0, 0)) (mem_places.2 ⟨h, h⟩)

theorem pos_places (n : Nat) (f : Nat × Nat → Bool) : Graph.pos ((places n).map f) = #{p ∈ range n ×ˢ range n | f p} := by
  unfold Graph.pos
  rw [List.filter_map, List.length_map, ← places_toFinset, ← List.toFinset_filter, List.toFinset_card_of_nodup ((places_nodup n).filter _)]
  rfl

theorem tp_places (n : Nat) (f g : Nat × Nat → Bool) : Graph.tp ((places n).map f) ((places n).map g) = #{p ∈ range n ×ˢ range n | f p ∧ g p} := by
  have h := pos_places n fun p => f p && g p
  simp only [Bool.and_eq_true] at h
  rw [← h]
  unfold Graph.tp Graph.pos
  rw [List.zip_map', List.filter_map, List.filter_map, List.length_map, List.length_map]
  rfl

/-- The matrices that are compared. -/
def shown (drop : Bool) (M : Nat → Nat → ℚ) : Nat → Nat → ℚ := if drop then noDiag M else M

theorem shown_eq (drop : Bool) (M : Nat → Nat → ℚ) (i j : Nat) : shown drop M i j = if drop = true ∧ i = j then 0 else M i j := by
  unfold shown noDiag
  cases drop <;> by_cases h : i = j <;> simp [h]

theorem perf_eq {fitted real : Arg α} {n m : Nat} {F R : Nat → Nat → ℚ} (hf : fitted.array = .ok (n, F)) (hr : real.array = .ok (m, R)) (thr : ℚ) (drop : Bool) :
    getPerformance fitted real thr drop = (checkTargets ((places m).map fun p => shown drop R p.1 p.2)
      ((places n).map fun p => decide (thr < shown drop (fun i j => |F i j|) p.1 p.2))).bind fun _ =>
        .ok ⟨Graph.f1Score ((places m).map fun p => decide (shown drop R p.1 p.2 = 1)) ((places n).map fun p => decide (thr < shown drop (fun i j => |F i j|) p.1 p.2)),
          Graph.precisionScore ((places m).map fun p => decide (shown drop R p.1 p.2 = 1)) ((places n).map fun p => decide (thr < shown drop (fun i j => |F i j|) p.1 p.2)),
          Graph.recallScore ((places m).map fun p => decide (shown drop R p.1 p.2 = 1)) ((places n).map fun p => decide (thr < shown drop (fun i j => |F i j|) p.1 p.2)), thr⟩ := by
  unfold getPerformance
  rw [hf, hr]
  unfold ravel
  simp only [bind, Except.bind, pure, Except.pure, List.map_map, Function.comp_def, shown]
  rfl

/-- C149: what is returned, and when anything is. Two arrays of different sizes raise `ValueError`. For `n > 0` rows and columns each the call returns exactly if
the compared entries of `real` are all 0 or 1, or, what is not meant, they are integers, all 1 or some other number `c`, and every entry is predicted. -/
theorem c149_returns (n m : Nat) (hn : 0 < n) (F R : Nat → Nat → ℚ) (thr : ℚ) (drop : Bool) :
    (n ≠ m → getPerformance (α := α) (.matrix n F) (.matrix m R) thr drop = .error .value) ∧
    ((∃ r, getPerformance (α := α) (.matrix n F) (.matrix n R) thr drop = .ok r) ↔
      (∀ i < n, ∀ j < n, (drop = true → i ≠ j) → R i j = 0 ∨ R i j = 1) ∨
      drop = false ∧ (∀ i < n, ∀ j < n, (R i j).den = 1 ∧ thr < |F i j|) ∧ ∃ c, ∀ i < n, ∀ j < n, R i j = c ∨ R i j = 1) := by
  constructor
  · intro hne
    rw [perf_eq rfl rfl]
    have : checkTargets ((places m).map fun p => shown drop R p.1 p.2)
      ((places n).map fun p => decide (thr < shown drop (fun i j => |F i j|) p.1 p.2)) = .error .value := by
      unfold checkTargets
      rw [if_pos]
      simp only [List.length_map]
      unfold places
      simp only [List.length_product, List.length_range]
      intro h
      exact hne (Nat.mul_self_inj.1 h).symm
    rw [this]
    rfl
  · have hok : (∃ r, getPerformance (α := α) (.matrix n F) (.matrix n R) thr drop = .ok r) ↔
        checkTargets ((places n).map fun p => shown drop R p.1 p.2)
          ((places n).map fun p => decide (thr < shown drop (fun i j => |F i j|) p.1 p.2)) = .ok () := by
      rw [perf_eq rfl rfl]
      rcases checkTargets_cases ((places n).map fun p => shown drop R p.1 p.2)
        ((places n).map fun p => decide (thr < shown drop (fun i j => |F i j|) p.1 p.2)) with h | h <;> rw [h] <;> simp [Except.bind]
    rw [hok, checkTargets_iff (by simpa using places_ne hn) (by simp)]
    simp only [List.forall_mem_map, and_imp, mem_places, Prod.forall, decide_eq_true_eq, shown_eq]
    constructor
    · rintro ⟨hd, h | ⟨c, h, ht⟩⟩
      · refine .inl fun i hi j hj hij => ?_
        have := h i j hi hj
        rwa [if_neg fun h => hij h.1 h.2] at this
      · cases drop
        · by_cases hz : ∀ i < n, ∀ j < n, R i j = 0 ∨ R i j = 1
          · exact .inl fun i hi j hj _ => hz i hi j hj
          · refine .inr ⟨rfl, fun i hi j hj => ⟨by simpa using hd i j hi hj, by simpa using ht i j hi hj⟩, c, fun i hi j hj => by simpa using h i j hi hj⟩
        · refine .inl fun i hi j hj hij => ?_
          have h0 : c = 0 := by
            have := h 0 0 hn hn
            simp only [and_self, if_true] at this
            rcases this with h | h
            · exact h.symm
            · norm_num at h
          have := h i j hi hj
          rwa [if_neg fun h => hij h.1 h.2, h0] at this
    · rintro (h | ⟨rfl, h, c, hc⟩)
      · have h' : ∀ i j : Nat, i < n → j < n → (if drop = true ∧ i = j then (0 : ℚ) else R i j) = 0 ∨ (if drop = true ∧ i = j then (0 : ℚ) else R i j) = 1 := by
          intro i j hi hj
          by_cases hij : drop = true ∧ i = j
          · rw [if_pos hij]
            exact .inl rfl
          · rw [if_neg hij]
            exact h i hi j hj fun hd e => hij ⟨hd, e⟩
        refine ⟨fun i j hi hj => ?_, .inl h'⟩
        rcases h' i j hi hj with e | e <;> rw [e] <;> rfl
      · exact ⟨fun i j hi hj => by simpa using (h i hi j hj).1, .inr ⟨c, fun i j hi hj => by simpa using hc i hi j hj, fun i j hi hj => by simpa using (h i hi j hj).2⟩⟩

/-- What `c149_value` says, for arguments that become the arrays `F` and `R`. -/
theorem perf_value {fitted real : Arg α} {n : Nat} {F R : Nat → Nat → ℚ} (hf : fitted.array = .ok (n, F)) (hr : real.array = .ok (n, R)) (hn : 0 < n) {thr : ℚ} {drop : Bool}
    (h0 : drop = true → 0 ≤ thr) (hR : ∀ i < n, ∀ j < n, (drop = true → i ≠ j) → R i j = 0 ∨ R i j = 1) (T P B : Nat)
    (hT : T = #{p ∈ range n ×ˢ range n | (drop = true → p.1 ≠ p.2) ∧ R p.1 p.2 = 1})
    (hP : P = #{p ∈ range n ×ˢ range n | (drop = true → p.1 ≠ p.2) ∧ thr < |F p.1 p.2|})
    (hB : B = #{p ∈ range n ×ˢ range n | (drop = true → p.1 ≠ p.2) ∧ R p.1 p.2 = 1 ∧ thr < |F p.1 p.2|}) :
    getPerformance fitted real thr drop = .ok ⟨if T + P = 0 then 0 else 2 * B / (T + P), if P = 0 then 0 else B / P, if T = 0 then 0 else B / T, thr⟩ := by
  have hok : checkTargets ((places n).map fun p => shown drop R p.1 p.2)
      ((places n).map fun p => decide (thr < shown drop (fun i j => |F i j|) p.1 p.2)) = .ok () := by
    have := (c149_returns (α := α) n n hn F R thr drop).2.2 (.inl hR)
    obtain ⟨r, hr⟩ := this
    rw [perf_eq rfl rfl] at hr
    rcases checkTargets_cases ((places n).map fun p => shown drop R p.1 p.2)
      ((places n).map fun p => decide (thr < shown drop (fun i j => |F i j|) p.1 p.2)) with h | h
    · exact h
    · rw [h] at hr
      cases hr
  have e1 : ∀ p : Nat × Nat, (shown drop R p.1 p.2 = 1 ↔ (drop = true → p.1 ≠ p.2) ∧ R p.1 p.2 = 1) := fun p => by
    rw [shown_eq]
    by_cases h : drop = true ∧ p.1 = p.2
    · rw [if_pos h]
      simp [h.1, h.2]
    · rw [if_neg h]
      exact ⟨fun h' => ⟨fun a b => h ⟨a, b⟩, h'⟩, fun h' => h'.2⟩
  have e2 : ∀ p : Nat × Nat, (thr < shown drop (fun i j => |F i j|) p.1 p.2 ↔ (drop = true → p.1 ≠ p.2) ∧ thr < |F p.1 p.2|) := fun p => by
    rw [shown_eq]
    by_cases h : drop = true ∧ p.1 = p.2
    · rw [if_pos h]
      simp [h.1, h.2, h0 h.1]
    · rw [if_neg h]
      exact ⟨fun h' => ⟨fun a b => h ⟨a, b⟩, h'⟩, fun h' => h'.2⟩
  have eT : Graph.pos ((places n).map fun p => decide (shown drop R p.1 p.2 = 1)) = T := by
    rw [pos_places, hT]
    congr 1
    exact filter_congr fun p _ => by rw [decide_eq_true_iff]; exact e1 p
  have eP : Graph.pos ((places n).map fun p => decide (thr < shown drop (fun i j => |F i j|) p.1 p.2)) = P := by
    rw [pos_places, hP]
    congr 1
    exact filter_congr fun p _ => by rw [decide_eq_true_iff]; exact e2 p
  have eB : Graph.tp ((places n).map fun p => decide (shown drop R p.1 p.2 = 1)) ((places n).map fun p => decide (thr < shown drop (fun i j => |F i j|) p.1 p.2)) = B := by
    rw [tp_places, hB]
    congr 1
    refine filter_congr fun p _ => ?_
    rw [decide_eq_true_iff, decide_eq_true_iff, e1, e2]
    tauto
  rw [perf_eq hf hr, hok]
  simp only [Except.bind, Graph.f1Score, Graph.precisionScore, Graph.recallScore, eT, eP, eB, Nat.cast_add]

/-- C149: for a matrix `real` of zeros and ones (off the diagonal, if that is dropped) the scores are those of the places compared: with `T` ones in
`real`, `P` predictions, entries of `fitted` beyond the threshold in absolute value, and `B` places with both, precision is `B / P`, recall `B / T` and F1
`2 B / (T + P)`, zero where nothing is divided. -/
theorem c149_value {n : Nat} (hn : 0 < n) {F R : Nat → Nat → ℚ} {thr : ℚ} {drop : Bool} (h0 : drop = true → 0 ≤ thr)
    (hR : ∀ i < n, ∀ j < n, (drop = true → i ≠ j) → R i j = 0 ∨ R i j = 1) (T P B : Nat)
    (hT : T = #{p ∈ range n ×ˢ range n | (drop = true → p.1 ≠ p.2) ∧ R p.1 p.2 = 1})
    (hP : P = #{p ∈ range n ×ˢ range n | (drop = true → p.1 ≠ p.2) ∧ thr < |F p.1 p.2|})
    (hB : B = #{p ∈ range n ×ˢ range n | (drop = true → p.1 ≠ p.2) ∧ R p.1 p.2 = 1 ∧ thr < |F p.1 p.2|}) :
    getPerformance (α := α) (.matrix n F) (.matrix n R) thr drop =
      .ok ⟨if T + P = 0 then 0 else 2 * B / (T + P), if P = 0 then 0 else B / P, if T = 0 then 0 else B / T, thr⟩ := perf_value rfl rfl hn h0 hR T P B hT hP hB

/-- C149: F1 is 1 exactly if the predictions are the ones of `real`, and there are some. -/
theorem c149_perfect {n : Nat} (hn : 0 < n) {F R : Nat → Nat → ℚ} {thr : ℚ} {drop : Bool} (h0 : drop = true → 0 ≤ thr)
    (hR : ∀ i < n, ∀ j < n, (drop = true → i ≠ j) → R i j = 0 ∨ R i j = 1) : ∃ r, getPerformance (α := α) (.matrix n F) (.matrix n R) thr drop = .ok r ∧
      (r.f1 = 1 ↔ (∃ i < n, ∃ j < n, (drop = true → i ≠ j) ∧ R i j = 1) ∧ ∀ i < n, ∀ j < n, (drop = true → i ≠ j) → (R i j = 1 ↔ thr < |F i j|)) ∧
      0 ≤ r.f1 ∧ r.f1 ≤ 1 ∧ 0 ≤ r.precision ∧ r.precision ≤ 1 ∧ 0 ≤ r.recall ∧ r.recall ≤ 1 ∧
      (r.precision + r.recall ≠ 0 → r.f1 = 2 * r.precision * r.recall / (r.precision + r.recall)) ∧ (r.precision + r.recall = 0 → r.f1 = 0) := by
  obtain ⟨T, hT⟩ : ∃ T, T = #{p ∈ range n ×ˢ range n | (drop = true → p.1 ≠ p.2) ∧ R p.1 p.2 = 1} := ⟨_, rfl⟩
  obtain ⟨P, hP⟩ : ∃ P, P = #{p ∈ range n ×ˢ range n | (drop = true → p.1 ≠ p.2) ∧ thr < |F p.1 p.2|} := ⟨_, rfl⟩
  obtain ⟨B, hB⟩ : ∃ B, B = #{p ∈ range n ×ˢ range n | (drop = true → p.1 ≠ p.2) ∧ R p.1 p.2 = 1 ∧ thr < |F p.1 p.2|} := ⟨_, rfl⟩
  have sT : ({p ∈ range n ×ˢ range n | (drop = true → p.1 ≠ p.2) ∧ R p.1 p.2 = 1 ∧ thr < |F p.1 p.2|} : Finset (Nat × Nat)) ⊆
      {p ∈ range n ×ˢ range n | (drop = true → p.1 ≠ p.2) ∧ R p.1 p.2 = 1} := fun p hp => by
    rw [mem_filter] at hp ⊢
    exact ⟨hp.1, hp.2.1, hp.2.2.1⟩
  have sP : ({p ∈ range n ×ˢ range n | (drop = true → p.1 ≠ p.2) ∧ R p.1 p.2 = 1 ∧ thr < |F p.1 p.2|} : Finset (Nat × Nat)) ⊆
      {p ∈ range n ×ˢ range n | (drop = true → p.1 ≠ p.2) ∧ thr < |F p.1 p.2|} := fun p hp => by
    rw [mem_filter] at hp ⊢
    exact ⟨hp.1, hp.2.1, hp.2.2.2⟩
  have hBT : B ≤ T := by rw [hB, hT]; exact card_le_card sT
  have hBP : B ≤ P := by rw [hB, hP]; exact card_le_card sP
  have hBT' : (B : ℚ) ≤ T := by exact_mod_cast hBT
  have hBP' : (B : ℚ) ≤ P := by exact_mod_cast hBP
  have hB0 : (0 : ℚ) ≤ B := Nat.cast_nonneg B
  refine ⟨_, c149_value hn h0 hR T P B hT hP hB, ?_, ?_, ?_, ?_, ?_, ?_, ?_, ?_, ?_⟩
  · dsimp only
    have hiff : (if T + P = 0 then (0 : ℚ) else 2 * B / (T + P)) = 1 ↔ T ≠ 0 ∧ B = T ∧ B = P := by
      by_cases h : T + P = 0
      · rw [if_pos h]
        constructor
        · intro h'
          norm_num at h'
        · rintro ⟨h', -⟩
          omega
      · rw [if_neg h]
        have hpos : (0 : ℚ) < T + P := by exact_mod_cast Nat.pos_of_ne_zero h
        rw [div_eq_one_iff_eq hpos.ne']
        constructor
        · intro h'
          have : 2 * B = T + P := by exact_mod_cast h'
          omega
        · rintro ⟨-, h1, h2⟩
          rw [← h1, ← h2]
          ring
    rw [hiff]
    constructor
    · rintro ⟨hT0, h1, h2⟩
      have q1 := eq_of_subset_of_card_le sT (by rw [← hT, ← hB, h1])
      have q2 := eq_of_subset_of_card_le sP (by rw [← hP, ← hB, h2])
      constructor
      · rw [hT, Ne, card_eq_zero, ← Ne, ← nonempty_iff_ne_empty] at hT0
        obtain ⟨p, hp⟩ := hT0
        rw [mem_filter, mem_product, mem_range, mem_range] at hp
        exact ⟨p.1, hp.1.1, p.2, hp.1.2, hp.2⟩
      · intro i hi j hj hij
        have q : (i, j) ∈ ({p ∈ range n ×ˢ range n | (drop = true → p.1 ≠ p.2) ∧ R p.1 p.2 = 1} : Finset (Nat × Nat)) ↔
            (i, j) ∈ ({p ∈ range n ×ˢ range n | (drop = true → p.1 ≠ p.2) ∧ thr < |F p.1 p.2|} : Finset (Nat × Nat)) := by rw [← q1, ← q2]
        simp only [mem_filter, mem_product, mem_range, hi, hj, and_true, true_and] at q
        exact ⟨fun h => (q.1 ⟨hij, h⟩).2, fun h => (q.2 ⟨hij, h⟩).2⟩
    · rintro ⟨⟨i, hi, j, hj, hij, h1⟩, hall⟩
      refine ⟨?_, ?_, ?_⟩
      · rw [hT]
        exact card_ne_zero_of_mem (a := (i, j)) (by
          rw [mem_filter, mem_product, mem_range, mem_range]
          exact ⟨⟨hi, hj⟩, hij, h1⟩)
      · rw [hB, hT]
        congr 1
        refine filter_congr fun p hp => ?_
        rw [mem_product, mem_range, mem_range] at hp
        constructor
        · exact fun h => ⟨h.1, h.2.1⟩
        · exact fun h => ⟨h.1, h.2, (hall _ hp.1 _ hp.2 h.1).1 h.2⟩
      · rw [hB, hP]
        congr 1
        refine filter_congr fun p hp => ?_
        rw [mem_product, mem_range, mem_range] at hp
        constructor
        · exact fun h => ⟨h.1, h.2.2⟩
        · exact fun h => ⟨h.1, (hall _ hp.1 _ hp.2 h.1).2 h.2, h.2⟩
  · dsimp only
    split
    · exact le_rfl
    · positivity
  · dsimp only
    split
    · exact zero_le_one
    · exact div_le_one_of_le₀ (by linarith) (by positivity)
  · dsimp only
    split
    · exact le_rfl
    · positivity
  · dsimp only
    split
    · exact zero_le_one
    · exact div_le_one_of_le₀ hBP' (by positivity)
  · dsimp only
    split
    · exact le_rfl
    · positivity
  · dsimp only
    split
    · exact zero_le_one
    · exact div_le_one_of_le₀ hBT' (by positivity)
  · dsimp only
    intro hne
    by_cases hb : B = 0
    · exfalso
      apply hne
      simp [hb]
    · have hT0 : T ≠ 0 := by omega
      have hP0 : P ≠ 0 := by omega
      rw [if_neg (by omega), if_neg hP0, if_neg hT0]
      have : (B : ℚ) ≠ 0 := by exact_mod_cast hb
      have : (T : ℚ) ≠ 0 := by exact_mod_cast hT0
      have : (P : ℚ) ≠ 0 := by exact_mod_cast hP0
      have : (T : ℚ) + P ≠ 0 := by positivity
      have : (B : ℚ) / P + B / T ≠ 0 := by positivity
      field_simp
  · dsimp only
    intro he
    by_cases hb : B = 0
    · simp [hb]
    · exfalso
      have hT0 : T ≠ 0 := by omega
      have hP0 : P ≠ 0 := by omega
      rw [if_neg hP0, if_neg hT0] at he
      have : (0 : ℚ) < B := by exact_mod_cast Nat.pos_of_ne_zero hb
      have : (0 : ℚ) < T := by exact_mod_cast Nat.pos_of_ne_zero hT0
      have : (0 : ℚ) < P := by exact_mod_cast Nat.pos_of_ne_zero hP0
      have : (0 : ℚ) < B / P + B / T := by positivity
      linarith

/-- C149: a higher threshold never raises the recall. -/
theorem c149_threshold {n : Nat} (hn : 0 < n) {F R : Nat → Nat → ℚ} {thr thr' : ℚ} {drop : Bool} (h0 : drop = true → 0 ≤ thr) (hle : thr ≤ thr')
    (hR : ∀ i < n, ∀ j < n, (drop = true → i ≠ j) → R i j = 0 ∨ R i j = 1) : ∃ r r', getPerformance (α := α) (.matrix n F) (.matrix n R) thr drop = .ok r ∧
      getPerformance (α := α) (.matrix n F) (.matrix n R) thr' drop = .ok r' ∧ r'.recall ≤ r.recall := by
  refine ⟨_, _, c149_value hn h0 hR _ _ _ rfl rfl rfl, c149_value hn (fun h => (h0 h).trans hle) hR _ _ _ rfl rfl rfl, ?_⟩
  dsimp only
  split
  · exact le_rfl
  · refine div_le_div_of_nonneg_right ?_ (Nat.cast_nonneg _)
    refine Nat.cast_le.2 (card_le_card fun p hp => ?_)
    rw [mem_filter] at hp ⊢
    exact ⟨hp.1, hp.2.1, hp.2.2.1, hle.trans_lt hp.2.2.2⟩

/-! ### graphs as arguments -/

theorem array_graph {k : Kind} {g : Graph α} (h : Reachable k g) : ∃ R : Nat → Nat → ℚ, (Arg.graph g).array = .ok (g.nodes.length, R) ∧
    ∀ (i j : Nat) (hi : i < g.nodes.length) (hj : j < g.nodes.length), R j i = match g.mark g.nodes[i] g.nodes[j] with
      | some x => (x.toInt : ℚ)
      | none => 0 := by
  obtain ⟨⟨hw, _⟩, hk⟩ := h.good
  obtain ⟨m, h1, -, h3⟩ := Graph.toNumpy_ok hw
  refine ⟨fun i j => (m i j : ℚ), ?_, fun i j hi hj => ?_⟩
  · simp only [Arg.array, h1]
    rfl
  · have h4 := h3 _ (List.getElem_mem hi) _ (List.getElem_mem hj)
    have e1 : g.nodeList.idxOf g.nodes[i] = i := hw.nodup.idxOf_getElem i hi
    have e2 : g.nodeList.idxOf g.nodes[j] = j := hw.nodup.idxOf_getElem j hj
    rw [e1, e2] at h4
    dsimp only
    rw [h4]
    cases g.mark g.nodes[i] g.nodes[j] <;> simp

/-- C149: a graph as `real`. With the defaults the call returns exactly if no tail and no circle is on any edge between different nodes: every edge is bidirected (or has
the mark `Null`). So a graph with a directed or an undirected edge always raises `ValueError`, whatever was fitted. -/
theorem c149_graph {k : Kind} {g : Graph α} (h : Reachable k g) (hn : g.nodes ≠ []) {fitted : Arg α} {F : Nat → Nat → ℚ}
    (hf : fitted.array = .ok (g.nodes.length, F)) (thr : ℚ) : ((∃ r, getPerformance fitted (.graph g) thr = .ok r) ↔
      ∀ u ∈ g.nodes, ∀ v ∈ g.nodes, u ≠ v → ∀ e, g.getEdge u v = .ok (some e) → e.mv = .arrow ∨ e.mv = .null) ∧
    ((∃ u ∈ g.nodes, ∃ v ∈ g.nodes, u ≠ v ∧ (g.isFullyDirected u v = .ok true ∨ g.isFullyUndirected u v = .ok true)) →
      getPerformance fitted (.graph g) thr = .error .value) := by
  obtain ⟨R, hR, hval⟩ := array_graph h
  obtain ⟨⟨hw, _⟩, hk⟩ := h.good
  have hlen : 0 < g.nodes.length := List.length_pos_iff.2 hn
  have same : getPerformance fitted (.graph g) thr = getPerformance (α := α) (.matrix g.nodes.length F) (.matrix g.nodes.length R) thr true := by
    rw [perf_eq hf hR, perf_eq rfl rfl]
  have hiff : (∃ r, getPerformance fitted (.graph g) thr = .ok r) ↔
      ∀ u ∈ g.nodes, ∀ v ∈ g.nodes, u ≠ v → ∀ e, g.getEdge u v = .ok (some e) → e.mv = .arrow ∨ e.mv = .null := by
    rw [same, (c149_returns (α := α) _ 0 hlen F R thr true).2]
    simp only [Bool.true_eq_false, false_and, or_false, forall_true_left]
    constructor
    · intro hz u hu v hv huv e he
      obtain ⟨i, hi, rfl⟩ := List.getElem_of_mem hu
      obtain ⟨j, hj, rfl⟩ := List.getElem_of_mem hv
      have hij : j ≠ i := fun h => huv (by simp [h])
      have hr := hz j hj i hi hij
      rw [hval i j hi hj] at hr
      rw [Graph.getEdge_ok hw hu hv] at he
      have := (Graph.edge?_eq_some.1 (Except.ok.inj he)).2.2.2
      rw [this] at hr
      cases hm : e.mv <;> (simp [hm, Mark.toInt] at hr ⊢; try norm_num at hr)
    · intro hz i hi j hj hij
      rw [hval j i hj hi]
      have hu := List.getElem_mem hj
      have hv := List.getElem_mem hi
      have huv : g.nodes[j] ≠ g.nodes[i] := fun e => hij ((hw.nodup.getElem_inj_iff).1 e).symm
      cases hm : g.mark g.nodes[j] g.nodes[i] with
      | none => exact .inl rfl
      | some x =>
        have hs := Graph.edge?_isSome hw g.nodes[j] g.nodes[i]
        rw [hm, Option.isSome_some, Option.isSome_iff_exists] at hs
        obtain ⟨e, he⟩ := hs
        have hmv := (Graph.edge?_eq_some.1 he).2.2.2
        have := hz _ hu _ hv huv e (by rw [Graph.getEdge_ok hw hu hv, he])
        rw [hm] at hmv
        have hx : x = e.mv := Option.some.inj hmv
        rw [hx]
        rcases this with h | h <;> rw [h] <;> simp [Mark.toInt]
  refine ⟨hiff, fun ⟨u, hu, v, hv, huv, hd⟩ => ?_⟩
  have hno : ¬ ∃ r, getPerformance fitted (.graph g) thr = .ok r := fun hr => by
    have hall := hiff.1 hr v hv u hu (Ne.symm huv)
    have ht : g.mark v u = some .tail := by
      rcases hd with hd | hd
      · rw [Graph.isFullyDirected_ok hw hu hv] at hd
        exact (of_decide_eq_true (Except.ok.inj hd)).1
      · rw [Graph.isFullyUndirected_ok hw hu hv] at hd
        exact (of_decide_eq_true (Except.ok.inj hd)).1
    have hs := Graph.edge?_isSome hw v u
    rw [ht, Option.isSome_some, Option.isSome_iff_exists] at hs
    obtain ⟨e, he⟩ := hs
    have hmv := (Graph.edge?_eq_some.1 he).2.2.2
    have := hall e (by rw [Graph.getEdge_ok hw hv hu, he])
    rw [ht] at hmv
    rw [← Option.some.inj hmv] at this
    simp at this
  rw [same, perf_eq rfl rfl] at hno ⊢
  rcases checkTargets_cases ((places g.nodes.length).map fun p => shown true R p.1 p.2)
      ((places g.nodes.length).map fun p => decide (thr < shown true (fun i j => |F i j|) p.1 p.2)) with h | h
  · rw [h] at hno
    exact absurd ⟨_, rfl⟩ hno
  · rw [h]
    rfl

/-- C149: expected, a fitted graph that is the true graph scores 1. False: for every directed graph with an edge between different nodes, compared with its own
matrix of zeros and ones (1 in row `j` and column `i` for an edge from node `i` to node `j`, where `to_numpy` has the arrow), precision is 1/2 and F1 2/3: a tail is -1 in
the fitted matrix, and its absolute value counts as an edge. -/
theorem c149_false {g : Graph α} (h : Reachable .digraph g) {R : Nat → Nat → ℚ}
    (hR : ∀ (i j : Nat) (hi : i < g.nodes.length) (hj : j < g.nodes.length), R j i = if g.isFullyDirected g.nodes[i] g.nodes[j] = .ok true then 1 else 0)
    (he : ∃ u ∈ g.nodes, ∃ v ∈ g.nodes, u ≠ v ∧ g.isFullyDirected u v = .ok true) :
    getPerformance (.graph g) (.matrix g.nodes.length R) = .ok ⟨2 / 3, 1 / 2, 1, 0⟩ := by
  obtain ⟨F, hF, hval⟩ := array_graph h
  obtain ⟨⟨hw, hkind⟩, hk⟩ := h.good
  obtain ⟨u, hu, v, hv, huv, hd⟩ := he
  have hlen : 0 < g.nodes.length := List.length_pos_iff.2 (List.ne_nil_of_mem hu)
  unfold Graph.KindOK at hkind
  rw [hk] at hkind
  have hone : ∀ (i j : Nat) (hi : i < g.nodes.length) (hj : j < g.nodes.length), (R j i = 1 ↔
      g.mark g.nodes[j] g.nodes[i] = some .tail ∧ g.mark g.nodes[i] g.nodes[j] = some .arrow) := fun i j hi hj => by
    rw [hR i j hi hj, Graph.isFullyDirected_ok hw (List.getElem_mem hi) (List.getElem_mem hj)]
    by_cases hm : g.mark g.nodes[j] g.nodes[i] = some .tail ∧ g.mark g.nodes[i] g.nodes[j] = some .arrow <;> simp [hm]
  have hpred : ∀ (i j : Nat) (hi : i < g.nodes.length) (hj : j < g.nodes.length), i ≠ j → (0 < |F j i| ↔ R j i = 1 ∨ R i j = 1) := fun i j hi hj hij => by
    rw [hone i j hi hj, hone j i hj hi, hval i j hi hj, abs_pos]
    have hne : g.nodes[i] ≠ g.nodes[j] := fun e => hij ((hw.nodup.getElem_inj_iff).1 e)
    cases hm : g.mark g.nodes[i] g.nodes[j] with
    | none => simp
    | some x =>
      rcases hkind.1 _ _ hne (by rw [hm]; rfl) with ⟨h1, h2⟩ | ⟨h1, h2⟩
      · rw [hm] at h1
        simp [Option.some.inj h1, h2, Mark.toInt]
      · rw [hm] at h1
        simp [Option.some.inj h1, h2, Mark.toInt]
  have hanti : ∀ (i j : Nat), i < g.nodes.length → j < g.nodes.length → R j i = 1 → ¬ R i j = 1 := fun i j hi hj h1 h2 => by
    have a := ((hone i j hi hj).1 h1).1
    have b := ((hone j i hj hi).1 h2).2
    rw [a] at b
    cases b
  set n := g.nodes.length with hn'
  have hz : ∀ i < n, ∀ j < n, (true = true → i ≠ j) → R i j = 0 ∨ R i j = 1 := fun i hi j hj _ => by
    rw [hR j i hj hi]
    split
    · exact .inr rfl
    · exact .inl rfl
  obtain ⟨T, hT⟩ : ∃ T, T = #{p ∈ range n ×ˢ range n | (true = true → p.1 ≠ p.2) ∧ R p.1 p.2 = 1} := ⟨_, rfl⟩
  have hB : T = #{p ∈ range n ×ˢ range n | (true = true → p.1 ≠ p.2) ∧ R p.1 p.2 = 1 ∧ 0 < |F p.1 p.2|} := by
    rw [hT]
    congr 1
    refine filter_congr fun p hp => ?_
    rw [mem_product, mem_range, mem_range] at hp
    constructor
    · exact fun h => ⟨h.1, h.2, (hpred p.2 p.1 hp.2 hp.1 (Ne.symm (h.1 rfl))).2 (.inl h.2)⟩
    · exact fun h => ⟨h.1, h.2.1⟩
  have hP : 2 * T = #{p ∈ range n ×ˢ range n | (true = true → p.1 ≠ p.2) ∧ 0 < |F p.1 p.2|} := by
    have hsplit : ({p ∈ range n ×ˢ range n | (true = true → p.1 ≠ p.2) ∧ 0 < |F p.1 p.2|} : Finset (Nat × Nat)) =
        {p ∈ range n ×ˢ range n | (true = true → p.1 ≠ p.2) ∧ R p.1 p.2 = 1} ∪ {p ∈ range n ×ˢ range n | (true = true → p.1 ≠ p.2) ∧ R p.2 p.1 = 1} := by
      ext p
      simp only [mem_union, mem_filter, mem_product, mem_range, forall_true_left]
      constructor
      · rintro ⟨hp, h1, h2⟩
        rcases (hpred p.2 p.1 hp.2 hp.1 (Ne.symm h1)).1 h2 with h | h
        · exact .inl ⟨hp, h1, h⟩
        · exact .inr ⟨hp, h1, h⟩
      · rintro (⟨hp, h1, h⟩ | ⟨hp, h1, h⟩)
        · exact ⟨hp, h1, (hpred p.2 p.1 hp.2 hp.1 (Ne.symm h1)).2 (.inl h)⟩
        · exact ⟨hp, h1, (hpred p.2 p.1 hp.2 hp.1 (Ne.symm h1)).2 (.inr h)⟩
    have hdisj : Disjoint ({p ∈ range n ×ˢ range n | (true = true → p.1 ≠ p.2) ∧ R p.1 p.2 = 1} : Finset (Nat × Nat))
        {p ∈ range n ×ˢ range n | (true = true → p.1 ≠ p.2) ∧ R p.2 p.1 = 1} := by
      rw [disjoint_left]
      intro p h1 h2
      simp only [mem_filter, mem_product, mem_range] at h1 h2
      exact hanti p.2 p.1 h1.1.2 h1.1.1 h1.2.2 h2.2.2
    have hcard : #{p ∈ range n ×ˢ range n | (true = true → p.1 ≠ p.2) ∧ R p.2 p.1 = 1} = T := by
      rw [hT]
      refine card_bij (fun p _ => p.swap) (fun p hp => ?_) (fun p _ q _ e => Prod.swap_injective e) fun p hp => ⟨p.swap, ?_, Prod.swap_swap p⟩
      · simp only [mem_filter, mem_product, mem_range, Prod.fst_swap, Prod.snd_swap] at hp ⊢
        exact ⟨⟨hp.1.2, hp.1.1⟩, fun _ => Ne.symm (hp.2.1 trivial), hp.2.2⟩
      · simp only [mem_filter, mem_product, mem_range, Prod.fst_swap, Prod.snd_swap] at hp ⊢
        exact ⟨⟨hp.1.2, hp.1.1⟩, fun _ => Ne.symm (hp.2.1 trivial), hp.2.2⟩
    rw [hsplit, card_union_of_disjoint hdisj, hcard, ← hT]
    ring
  have hT0 : T ≠ 0 := by
    obtain ⟨i, hi, rfl⟩ := List.getElem_of_mem hu
    obtain ⟨j, hj, rfl⟩ := List.getElem_of_mem hv
    rw [hT]
    refine card_ne_zero_of_mem (a := (j, i)) ?_
    simp only [mem_filter, mem_product, mem_range]
    refine ⟨⟨hj, hi⟩, fun _ e => huv (by simp [e]), ?_⟩
    rw [hR i j hi hj, if_pos hd]
  rw [perf_value hF rfl hlen (fun _ => le_rfl) hz T (2 * T) T hT hP hB]
  have : (T : ℚ) ≠ 0 := by exact_mod_cast hT0
  rw [if_neg (by omega), if_neg (by omega), if_neg hT0]
  push_cast
  congr 2
  · rw [div_eq_div_iff (by intro h; apply this; linarith) (by norm_num)]
    ring
  · rw [div_eq_div_iff (by positivity) (by norm_num)]
    ring
  · exact div_self this

/-! ### Concrete cases -/

/-- Two of the three edges of a triangle found, one wrong. -/
example : getPerformance (α := Nat) (.matrix 3 fun i j => if (i, j) = (0, 1) then -2 else if (i, j) = (1, 2) ∨ (i, j) = (1, 0) then 1 else 5 / 10)
    (.matrix 3 fun i j => if i < j then 1 else 0) (1 / 2) = .ok ⟨2 / 3, 2 / 3, 2 / 3, 1 / 2⟩ := by decide +kernel
example : getPerformance (α := Nat) (.matrix 2 fun _ _ => 1) (.matrix 2 fun i j => if i < j then 1 / 2 else 0) = .error .value := by decide +kernel
example : getPerformance (α := Nat) (.matrix 2 fun _ _ => 1) (.matrix 2 fun i j => if i < j then 1 else 7) 0 false = .ok ⟨2 / 5, 1 / 4, 1, 0⟩ := by decide +kernel

/-- The graph 0 → 1 → 2. -/
def chain : Graph Nat := (Graph.run ((Graph.init .digraph [0, 1, 2]).toOption.getD ⟨.digraph, [], [], []⟩) [.addEdge ⟨0, 1, .tail, .arrow⟩ false, .addEdge ⟨1, 2, .tail, .arrow⟩ false])

example : getPerformance (.graph chain) (.matrix 3 fun i j => if i = j + 1 then 1 else 0) = .ok ⟨2 / 3, 1 / 2, 1, 0⟩ := by decide +kernel
example : getPerformance (.graph chain) (.graph chain) = .error .value := by decide +kernel

end Perf
end Cdmir
