import Verif.Model.SimulateLag
import Verif.Props.SimulatePnl
import Mathlib.Data.List.GetD

/-! Properties C73 and C74: the simulators of time series. -/

namespace Cdmir.Sim
open BigOperators

set_option linter.unusedSectionVars false

/-- Row `i` of a series. -/
def rowAt {K : Type} [Zero K] {n : Nat} (out : List (Row n K)) (i : Nat) : Row n K := out.getD i (fun _ => 0)

section
variable {K : Type} [CommRing K] [DecidableEq K] {n : Nat}

theorem lagFold_spec {step : Nat → List (Row n K) → Except Err (Row n K)} {start : List (Row n K)} (len : Nat)
    {w o : List (Row n K)} (h : (List.range len).foldlM (fun (st : List (Row n K) × List (Row n K)) t => do
      let v ← step t st.1
      pure ((st.1 ++ [v]).drop 1, st.2 ++ [v])) (start, start) = Except.ok (w, o)) :
    o.length = start.length + len ∧ w = o.drop len ∧ (∀ k, k < start.length → rowAt o k = rowAt start k) ∧
      ∀ t < len, step t ((o.drop t).take start.length) = Except.ok (rowAt o (start.length + t)) := by
  induction len generalizing w o with
  | zero =>
    cases h
    simp
  | succ len ih =>
    rw [List.range_succ, List.foldlM_append] at h
    generalize hr : (List.range len).foldlM (fun (st : List (Row n K) × List (Row n K)) t => do
      let v ← step t st.1
      pure ((st.1 ++ [v]).drop 1, st.2 ++ [v])) (start, start) = r at h
    cases r with
    | error e => cases h
    | ok st =>
      obtain ⟨w1, o1⟩ := st
      obtain ⟨l1, l2, l3, l4⟩ := ih hr
      rw [ok_bind, List.foldlM_cons] at h
      cases hv : step len w1 with
      | error e => simp only [hv] at h; cases h
      | ok v =>
        simp only [hv] at h
        have h2 : (List.drop 1 (w1 ++ [v]), o1 ++ [v]) = (w, o) := Except.ok.inj h
        obtain ⟨rfl, rfl⟩ := Prod.mk.inj h2
        have d1 : (o1 ++ [v]).drop len = o1.drop len ++ [v] := by
          rw [List.drop_append_of_le_length (by omega)]
        refine ⟨by simp [l1]; omega, ?_, fun k hk => ?_, fun t ht => ?_⟩
        · rw [l2, ← d1, List.drop_drop]
        · rw [← l3 k hk]
          unfold rowAt
          rw [List.getD_append _ _ _ _ (by omega)]
        · rcases Nat.lt_succ_iff_lt_or_eq.1 ht with q | rfl
          · have e1 : ((o1 ++ [v]).drop t).take start.length = (o1.drop t).take start.length := by
              rw [List.drop_append_of_le_length (by omega), List.take_append_of_le_length (by simp; omega)]
            rw [e1, l4 t q]
            unfold rowAt
            rw [List.getD_append _ _ _ _ (by omega)]
          · have e1 : ((o1 ++ [v]).drop t).take start.length = w1 := by
              rw [d1, ← l2, List.take_append_of_le_length (by rw [l2]; simp; omega), List.take_of_length_le]
              rw [l2]; simp; omega
            rw [e1, hv]
            unfold rowAt
            rw [List.getD_append_right _ _ _ _ (by omega), l1]
            simp

/-- The loop of all three simulators: the result begins with the first rows, and every later row is the step applied to the rows
just before it. -/
theorem lagLoop_spec {step : Nat → List (Row n K) → Except Err (Row n K)} {start out : List (Row n K)} {len : Nat}
    (h : lagLoop step start len = Except.ok out) :
    out.length = start.length + len ∧ (∀ k, k < start.length → rowAt out k = rowAt start k) ∧
      ∀ t < len, step t ((out.drop t).take start.length) = Except.ok (rowAt out (start.length + t)) := by
  unfold lagLoop at h
  generalize hr : (List.range len).foldlM (fun (st : List (Row n K) × List (Row n K)) t => do
      let v ← step t st.1
      pure ((st.1 ++ [v]).drop 1, st.2 ++ [v])) (start, start) = r at h
  cases r with
  | error e => cases h
  | ok st =>
    obtain ⟨w, o⟩ := st
    obtain rfl : o = out := Except.ok.inj h
    obtain ⟨l1, _, l3, l4⟩ := lagFold_spec len hr
    exact ⟨l1, l3, l4⟩

theorem lagLoop_ok {step : Nat → List (Row n K) → Except Err (Row n K)} {L : Nat}
    (h : ∀ t win, win.length = L → ∃ v, step t win = Except.ok v) {start : List (Row n K)} (hs : start.length = L) (len : Nat) :
    ∃ out, lagLoop step start len = Except.ok out := by
  unfold lagLoop
  suffices ∀ (ts : List Nat) (st : List (Row n K) × List (Row n K)), st.1.length = L →
      ∃ st', ts.foldlM (fun (st : List (Row n K) × List (Row n K)) t => do
        let v ← step t st.1
        pure ((st.1 ++ [v]).drop 1, st.2 ++ [v])) st = Except.ok st' by
    obtain ⟨st', q⟩ := this (List.range len) (start, start) hs
    exact ⟨st'.2, by rw [q]; rfl⟩
  intro ts
  induction ts with
  | nil => intro st _; exact ⟨st, rfl⟩
  | cons t ts ih =>
    intro st hl
    obtain ⟨v, hv⟩ := h t st.1 hl
    rw [List.foldlM_cons]
    simp only [hv]
    exact ih _ (by simp [hl])

theorem startRows_add {nt : NoiseType} (ht : nt.Additive) (draw : NoiseType → Nat × Fin n → K) (sv : Fin n → K) (lags : Nat) :
    startRows draw nt sv lags = Except.ok ((List.range lags).map (fun k c => draw nt (k, c) * sv c)) := by
  unfold startRows
  rw [genNoise_add ht]
  rfl

theorem rowAt_start (f : Nat → Row n K) {lags k : Nat} (hk : k < lags) : rowAt ((List.range lags).map f) k = f k := by
  simp [rowAt, hk]

theorem rowAt_window (out : List (Row n K)) {t L k : Nat} (hk : k < L) :
    ((out.drop t).take L).getD k (fun _ => 0) = rowAt out (t + k) := by
  unfold rowAt
  rw [List.getD_eq_getElem?_getD, List.getElem?_take_of_lt hk, List.getElem?_drop, ← List.getD_eq_getElem?_getD]

theorem lagSum_eq (W : Nat → Matrix (Fin n) (Fin n) K) (L : Nat) (win : List (Row n K)) (c : Fin n) :
    lagSum W L win c = ∑ k ∈ Finset.range L, ∑ i, rowAt win k i * W k i c := by
  unfold lagSum
  induction L with
  | zero => simp
  | succ L ih =>
    rw [List.range_succ, List.foldl_append, Finset.sum_range_succ, ← ih]
    rfl

theorem stepLinear_add (d : LagDraw n K) {nt : NoiseType} (ht : nt.Additive) (sv : Fin n → K)
    (W : Nat → Matrix (Fin n) (Fin n) K) (L t : Nat) (win : List (Row n K)) :
    stepLinear d nt sv W L t win = Except.ok (fun c => ∑ k ∈ Finset.range L, ∑ i, rowAt win k i * W k i c +
      d.noise t nt c * sv c) := by
  have hl : nt ≠ .logistic := by rcases ht with rfl | rfl | rfl | rfl | rfl <;> simp
  unfold stepLinear
  simp only [if_neg hl, genNoise_add ht, ok_bind, lagSum_eq]
  rfl

/-- C73. The linear time series: for every number of lags, weights, scales and additive noise, the series has one row per lag and
one per step; the first rows are noise; and every later row is the sum over the lags of the row `lags - k` steps before times
`weight_mats[k]`, plus scaled noise. The matrix with index 0 belongs to the longest lag. -/
theorem c73_linear (d : LagDraw n K) (lags : Nat) (W : Nat → Matrix (Fin n) (Fin n) K) {maxLag : Option Nat}
    (length : Option Nat) {nt : NoiseType} {sc : Scale K} {sv : Fin n → K} (ht : nt.Additive) (hs : ScaleOf sc sv)
    (hm : maxLag = none ∨ maxLag = some lags) :
    ∃ out, lagLinear d lags W maxLag length nt sc = Except.ok out ∧ out.length = lags + length.getD 5000 ∧
      (∀ k < lags, ∀ c, rowAt out k c = sv c * d.start nt (k, c)) ∧
      ∀ t < length.getD 5000, ∀ c, rowAt out (lags + t) c =
        ∑ k ∈ Finset.range lags, ∑ i, rowAt out (t + k) i * W k i c + sv c * d.noise t nt c := by
  have h1 : ¬ (nt = .other ∨ nt = .poisson) := by rcases ht with rfl | rfl | rfl | rfl | rfl <;> simp
  have h2 : ¬ nt = .logistic := by rcases ht with rfl | rfl | rfl | rfl | rfl <;> simp
  have h3 : maxLag.getD lags = lags := by rcases hm with rfl | rfl <;> rfl
  obtain ⟨out, ho⟩ := lagLoop_ok (step := stepLinear d nt sv W lags) (L := lags)
    (fun t win _ => ⟨_, stepLinear_add d ht sv W lags t win⟩)
    (start := (List.range lags).map (fun k c => d.start nt (k, c) * sv c)) (by simp) (length.getD 5000)
  have sp := lagLoop_spec ho
  rw [List.length_map, List.length_range] at sp
  obtain ⟨l1, l2, l3⟩ := sp
  refine ⟨out, ?_, l1, fun k hk c => ?_, fun t ht' c => ?_⟩
  · simp only [lagLinear, if_neg h1, if_neg h2, h3, scaleVec_of hs, startRows_add ht, ok_bind, ne_eq, not_true_eq_false, if_false]
    exact ho
  · rw [l2 k hk, rowAt_start _ hk, mul_comm]
  · have := l3 t ht'
    rw [stepLinear_add d ht] at this
    rw [← congrFun (Except.ok.inj this) c, mul_comm (sv c)]
    congr 1
    refine Finset.sum_congr rfl fun k hk => Finset.sum_congr rfl fun i _ => ?_
    have := rowAt_window out (t := t) (Finset.mem_range.1 hk)
    rw [← this]
    rfl

/-- C73. With binary values the value at each step is drawn with a probability made from that sum. -/
theorem c73_logistic (d : LagDraw n K) (lags : Nat) (W : Nat → Matrix (Fin n) (Fin n) K) {maxLag : Option Nat}
    (length : Option Nat) {sc : Scale K} {sv : Fin n → K} (hs : ScaleOf sc sv) (hm : maxLag = none ∨ maxLag = some lags) :
    ∃ out, lagLinear d lags W maxLag length .logistic sc = Except.ok out ∧ out.length = lags + length.getD 5000 ∧
      (∀ k < lags, ∀ c, rowAt out k c = sv c * d.start .gauss (k, c)) ∧
      ∀ t < length.getD 5000, ∀ c, rowAt out (lags + t) c =
        d.binomial t c (d.sigmoid (∑ k ∈ Finset.range lags, ∑ i, rowAt out (t + k) i * W k i c)) := by
  have h3 : maxLag.getD lags = lags := by rcases hm with rfl | rfl <;> rfl
  have st : ∀ t win, stepLinear d .logistic sv W lags t win = Except.ok (fun c => d.binomial t c (d.sigmoid (lagSum W lags win c))) :=
    fun _ _ => rfl
  obtain ⟨out, ho⟩ := lagLoop_ok (step := stepLinear d .logistic sv W lags) (L := lags) (fun t win _ => ⟨_, st t win⟩)
    (start := (List.range lags).map (fun k c => d.start .gauss (k, c) * sv c)) (by simp) (length.getD 5000)
  have sp := lagLoop_spec ho
  rw [List.length_map, List.length_range] at sp
  obtain ⟨l1, l2, l3⟩ := sp
  refine ⟨out, ?_, l1, fun k hk c => ?_, fun t ht' c => ?_⟩
  · simp only [lagLinear, h3, scaleVec_of hs, startRows_add (nt := .gauss) (Or.inl rfl), ok_bind, ne_eq, not_true_eq_false,
      if_false, if_true, reduceCtorEq, or_self]
    exact ho
  · rw [l2 k hk, rowAt_start _ hk, mul_comm]
  · have := l3 t ht'
    rw [st] at this
    rw [← congrFun (Except.ok.inj this) c, lagSum_eq]
    congr 2
    refine Finset.sum_congr rfl fun k hk => Finset.sum_congr rfl fun i _ => ?_
    have := rowAt_window out (t := t) (Finset.mem_range.1 hk)
    rw [← this]
    rfl

/-- C73. A `max_lag` other than the number of matrices is refused with `ValueError`. -/
theorem c73_refused (d : LagDraw n K) (lags : Nat) (W : Nat → Matrix (Fin n) (Fin n) K) {m : Nat} (hm : m ≠ lags)
    (length : Option Nat) {nt : NoiseType} (h1 : nt ≠ .other ∧ nt ≠ .poisson) (sc : Scale K) :
    lagLinear d lags W (some m) length nt sc = Except.error .value := by
  have h2 : ¬ (nt = .other ∨ nt = .poisson) := by simp [h1.1, h1.2]
  simp only [lagLinear, if_neg h2, Option.getD_some, ne_eq, hm, not_false_eq_true, if_true]
  rfl

/-! ### C74: non-linear and post-nonlinear time series -/

theorem maskRows_append (A : Nat → Matrix (Fin n) (Fin n) K) (j : Fin n) (win : List (Row n K)) (r : Row n K) :
    maskRows A j (win ++ [r]) = maskRows A j win ++ [fun i => r i * A win.length i j] := by
  simp [maskRows, List.zipIdx_append]

theorem lagDot_mask (A : Nat → Matrix (Fin n) (Fin n) K) (j : Fin n) (win : List (Row n K)) (w : Fin n → K) :
    lagDot (maskRows A j win) w = ∑ k ∈ Finset.range win.length, ∑ i, rowAt win k i * A k i j * w i := by
  induction win using List.reverseRecOn with
  | nil => rfl
  | append_singleton win r ih =>
    rw [maskRows_append]
    unfold lagDot at ih ⊢
    rw [List.map_append, List.sum_append, ih, List.length_append, List.length_singleton, Finset.sum_range_succ]
    congr 1
    · refine Finset.sum_congr rfl fun k hk => Finset.sum_congr rfl fun i _ => ?_
      unfold rowAt
      rw [List.getD_append _ _ _ _ (Finset.mem_range.1 hk)]
    · simp [rowAt]

theorem mapM_all {ι β : Type} {g : ι → Except Err β} {f : ι → β} (h : ∀ i, g i = Except.ok (f i)) (l : List ι) :
    l.mapM g = Except.ok (l.map f) := by
  induction l with
  | nil => rfl
  | cons i l ih =>
    rw [List.mapM_cons, h, ok_bind, ih]
    rfl

theorem vals_getD (f : Fin n → K) (j : Fin n) : ((List.finRange n).map f).getD j.val 0 = f j := by
  simp [List.getD_eq_getElem?_getD]

/-- The part of the value of node `j` at step `t` that is not noise, in the two models, as a function of the window `win` of the
rows before: `win k` is the row of lag index `k`. -/
def LagPart (d : LagNonlinDraw n K) (lags : Nat) (A : Nat → Matrix (Fin n) (Fin n) K) (func : FuncType) (hidden : Nat) (t : Nat)
    (j : Fin n) (win : Nat → Row n K) : K :=
  match func with
  | .mlp => ∑ h ∈ Finset.range hidden,
      d.sigmoid (∑ k ∈ Finset.range lags, ∑ i, win k i * A k i j * d.w1 t j i h) * d.w2 t j h
  | .mim => d.tanh (∑ k ∈ Finset.range lags, ∑ i, win k i * A k i j * d.m1 t j i) +
      d.cos (∑ k ∈ Finset.range lags, ∑ i, win k i * A k i j * d.m2 t j i) +
      d.sin (∑ k ∈ Finset.range lags, ∑ i, win k i * A k i j * d.m3 t j i)
  | .other => 0

theorem sum_range_list (f : Nat → K) (m : Nat) : ((List.range m).map f).sum = ∑ h ∈ Finset.range m, f h := rfl

theorem stepNonlin_eq (d : LagNonlinDraw n K) {nt : NoiseType} (ht : nt.Additive) (sv : Fin n → K)
    (A : Nat → Matrix (Fin n) (Fin n) K) {func : FuncType} (hf : func ≠ .other) (hidden : Option Nat) (t : Nat)
    (win : List (Row n K)) :
    stepNonlin d nt sv A func hidden t win = Except.ok (fun j =>
      LagPart d win.length A func (hidden.getD 100) t j (rowAt win) + d.noise t nt j * sv j) := by
  have hv : ∀ j : Fin n, lagNonlinValue d func hidden t j (maskRows A j win) =
      Except.ok (LagPart d win.length A func (hidden.getD 100) t j (rowAt win)) := by
    intro j
    have hn : n ≠ 0 := fun q => by subst q; exact j.elim0
    unfold lagNonlinValue
    rw [if_neg hn]
    cases func with
    | other => exact absurd rfl hf
    | mlp => simp only [lagDot_mask, sum_range_list]; rfl
    | mim => simp only [lagDot_mask]; rfl
  unfold stepNonlin
  rw [genNoise_add ht, ok_bind, mapM_all hv, ok_bind]
  show Except.ok _ = _
  congr 1
  funext j
  rw [vals_getD]

/-- C74 (the part that holds). The non-linear time series satisfies, at every step, "value = the function drawn for the node at this
step, of the masked window, + scaled noise". The full property asks for one function per node through time; the weights of the code
are drawn anew at every step, see `c74_false`. -/
theorem c74_nonlinear_partial (d : LagNonlinDraw n K) (lags : Nat) (A : Nat → Matrix (Fin n) (Fin n) K) {maxLag : Option Nat}
    (length : Option Nat) {nt : NoiseType} {sc : Scale K} {sv : Fin n → K} {func : FuncType} (hidden : Option Nat)
    (ht : nt.Additive) (hs : ScaleOf sc sv) (hm : maxLag = none ∨ maxLag = some lags) (hf : func ≠ .other) :
    ∃ out, lagNonlinear d lags A maxLag length nt sc func hidden = Except.ok out ∧ out.length = lags + length.getD 5000 ∧
      (∀ k < lags, ∀ c, rowAt out k c = sv c * d.start nt (k, c)) ∧
      ∀ t < length.getD 5000, ∀ j, rowAt out (lags + t) j =
        LagPart d lags A func (hidden.getD 100) t j (fun k => rowAt out (t + k)) + sv j * d.noise t nt j := by
  have h1 : ¬ (nt = .other ∨ nt = .logistic ∨ nt = .poisson) := by rcases ht with rfl | rfl | rfl | rfl | rfl <;> simp
  have h3 : maxLag.getD lags = lags := by rcases hm with rfl | rfl <;> rfl
  obtain ⟨out, ho⟩ := lagLoop_ok (step := stepNonlin d nt sv A func hidden) (L := lags)
    (fun t win _ => ⟨_, stepNonlin_eq d ht sv A hf hidden t win⟩)
    (start := (List.range lags).map (fun k c => d.start nt (k, c) * sv c)) (by simp) (length.getD 5000)
  have sp := lagLoop_spec ho
  rw [List.length_map, List.length_range] at sp
  obtain ⟨l1, l2, l3⟩ := sp
  refine ⟨out, ?_, l1, fun k hk c => ?_, fun t ht' j => ?_⟩
  · simp only [lagNonlinear, if_neg h1, if_neg hf, h3, scaleVec_of hs, startRows_add ht, ok_bind, ne_eq, not_true_eq_false,
      if_false]
    exact ho
  · rw [l2 k hk, rowAt_start _ hk, mul_comm]
  · have := l3 t ht'
    rw [stepNonlin_eq d ht sv A hf] at this
    rw [← congrFun (Except.ok.inj this) j, mul_comm (sv j)]
    congr 1
    have wl : ((out.drop t).take lags).length = lags := by simp; omega
    have e : ∀ k ∈ Finset.range lags, rowAt ((out.drop t).take lags) k = rowAt out (t + k) := fun k hk =>
      rowAt_window out (t := t) (Finset.mem_range.1 hk)
    have e2 : ∀ w : Fin n → K, ∑ k ∈ Finset.range lags, ∑ i, rowAt ((out.drop t).take lags) k i * A k i j * w i =
        ∑ k ∈ Finset.range lags, ∑ i, rowAt out (t + k) i * A k i j * w i := fun w =>
      Finset.sum_congr rfl fun k hk => by rw [e k hk]
    rw [wl]
    unfold LagPart
    cases func with
    | other => rfl
    | mlp => simp only [e2]
    | mim => simp only [e2]

/-- C74. The post-nonlinear time series has no default length: without one the call raises `TypeError`. -/
theorem c74_length (d : LagPnlDraw n K) (lags : Nat) (A : Nat → Matrix (Fin n) (Fin n) K) {maxLag : Option Nat}
    {nt : NoiseType} {sc : Scale K} {sv : Fin n → K} (f1 f2 : FnSpec) (ht : nt.Additive) (hs : ScaleOf sc sv)
    (hm : maxLag = none ∨ maxLag = some lags) (h1 : f1.accepted = true) (h2 : f2.accepted = true) :
    lagPnl d lags A maxLag none nt sc f1 f2 none = Except.error .type := by
  have h0 : ¬ (nt = .other ∨ nt = .logistic ∨ nt = .poisson) := by rcases ht with rfl | rfl | rfl | rfl | rfl <;> simp
  have h3 : maxLag.getD lags = lags := by rcases hm with rfl | rfl <;> rfl
  simp only [lagPnl, if_neg h0, h1, h2, h3, scaleVec_of hs, startRows_add ht, ok_bind, ne_eq, not_true_eq_false,
    if_false, Bool.not_true, Bool.or_self, Bool.false_eq_true, Option.getD_none, false_and]
  rfl

theorem pnl_one_elem {e : Elem K} {W : Nat → Nat → Nat → K} {f : Fn} {g : K → K}
    (hg : ∀ W din dout, pnlFunc e W f din dout = .elem g) (din dout hidden : Nat) (x : List K) :
    runLayers (pnlLayers e W (.one f) din dout hidden) x = Except.ok (x.map g) := by
  show runLayers [pnlFunc e (W 0) f din dout] x = _
  rw [hg]
  rfl

theorem sumRows_spec (rows : List (List K)) (m : Nat) (h : ∀ r ∈ rows, r.length = m) :
    (sumRows m rows).length = m ∧ ∀ c, (sumRows m rows).getD c 0 = (rows.map (fun r => r.getD c 0)).sum := by
  have gen : ∀ (rs : List (List K)) (r : List K), r.length = m → (∀ r ∈ rs, r.length = m) →
      (rs.foldl (List.zipWith (· + ·)) r).length = m ∧ ∀ c, (rs.foldl (List.zipWith (· + ·)) r).getD c 0 =
        r.getD c 0 + (rs.map (fun r => r.getD c 0)).sum := by
    intro rs
    induction rs with
    | nil => intro r h1 _; simp [h1]
    | cons a rs ih =>
      intro r h1 h2
      have ha := h2 a List.mem_cons_self
      have hl : (List.zipWith (· + ·) r a).length = m := by simp [h1, ha]
      obtain ⟨q1, q2⟩ := ih (List.zipWith (· + ·) r a) hl (fun x hx => h2 x (List.mem_cons_of_mem _ hx))
      refine ⟨q1, fun c => ?_⟩
      rw [List.foldl_cons, q2 c, List.map_cons, List.sum_cons, ← add_assoc]
      congr 1
      by_cases hc : c < m
      · simp [List.getD_eq_getElem?_getD, h1, ha, hc]
      · have : m ≤ c := by omega
        simp [List.getD_eq_getElem?_getD, h1, ha, this]
  cases rows with
  | nil =>
    refine ⟨by simp [sumRows], fun c => ?_⟩
    by_cases hc : c < m <;> simp [sumRows, List.getD_eq_getElem?_getD, hc]
  | cons r rs =>
    obtain ⟨q1, q2⟩ := gen rs r (h r List.mem_cons_self) (fun x hx => h x (List.mem_cons_of_mem _ hx))
    exact ⟨q1, fun c => by rw [List.map_cons, List.sum_cons]; exact q2 c⟩

/-- The function of single numbers a name stands for. -/
def ElemOf (e : Elem K) (f : FnSpec) (g : K → K) : Prop :=
  (f = .one .tanh ∧ g = e.tanh) ∨ (f = .one .leakyRelu ∧ g = e.leaky)

theorem elemOf_run {e : Elem K} {f : FnSpec} {g : K → K} (h : ElemOf e f g) (W : Nat → Nat → Nat → K) (din dout hidden : Nat)
    (x : List K) : runLayers (pnlLayers e W f din dout hidden) x = Except.ok (x.map g) := by
  rcases h with ⟨rfl, rfl⟩ | ⟨rfl, rfl⟩
  · exact pnl_one_elem (fun _ _ _ => rfl) din dout hidden x
  · exact pnl_one_elem (fun _ _ _ => rfl) din dout hidden x

theorem maskRows_map (A : Nat → Matrix (Fin n) (Fin n) K) (j : Fin n) (win : List (Row n K)) (g : Row n K → K) :
    ((maskRows A j win).map g).sum = ∑ k ∈ Finset.range win.length, g (fun i => rowAt win k i * A k i j) := by
  induction win using List.reverseRecOn with
  | nil => rfl
  | append_singleton win r ih =>
    rw [maskRows_append, List.map_append, List.sum_append, ih, List.length_append, List.length_singleton,
      Finset.sum_range_succ]
    congr 1
    · refine Finset.sum_congr rfl fun k hk => ?_
      unfold rowAt
      rw [List.getD_append _ _ _ _ (Finset.mem_range.1 hk)]
    · simp [rowAt]

theorem lagPnlValue_elem (d : LagPnlDraw n K) {f1 f2 : FnSpec} {g1 g2 : K → K} (h1 : ElemOf d.elem f1 g1)
    (h2 : ElemOf d.elem f2 g2) (noise : Nat × Fin n → K) (A : Nat → Matrix (Fin n) (Fin n) K) (j : Fin n)
    (win : List (Row n K)) : lagPnlValue d f1 f2 n noise j (maskRows A j win) = Except.ok (∑ i : Fin n,
      g2 (∑ k ∈ Finset.range win.length, g1 (rowAt win k i * A k i j) + noise (i.val, j))) := by
  unfold lagPnlValue
  rw [mapM_all (fun r => elemOf_run h1 (d.w1 j) n n n ((List.finRange n).map r)), ok_bind]
  set us := (maskRows A j win).map (fun r => ((List.finRange n).map r).map g1) with hus
  obtain ⟨q1, q2⟩ := sumRows_spec us n (fun r hr => by
    obtain ⟨r', _, rfl⟩ := List.mem_map.1 hr; simp)
  have q3 : ∀ i : Fin n, (sumRows n us).getD i.val 0 = ∑ k ∈ Finset.range win.length, g1 (rowAt win k i * A k i j) := by
    intro i
    rw [q2 i.val, hus, List.map_map, ← maskRows_map A j win (fun r => g1 (r i))]
    congr 1
    refine List.map_congr_left fun r _ => ?_
    simp [List.getD_eq_getElem?_getD]
  have e : addRow (sumRows n us) ((List.range n).map (fun c => noise (c, j))) = Except.ok ((List.finRange n).map (fun i =>
      ∑ k ∈ Finset.range win.length, g1 (rowAt win k i * A k i j) + noise (i.val, j))) := by
    refine (if_pos (by simp [q1])).trans ?_
    show Except.ok _ = _
    congr 1
    refine List.ext_getElem (by simp [q1]) fun i h3 h4 => ?_
    have hi : i < n := by simpa using h4
    have := q3 ⟨i, hi⟩
    rw [List.getD_eq_getElem?_getD, List.getElem?_eq_getElem (by rw [q1]; exact hi)] at this
    simp only [Option.getD_some] at this
    simp [this]
  rw [e, ok_bind, elemOf_run h2, ok_bind]
  show Except.ok _ = _
  congr 1
  rw [List.map_map, ← List.ofFn_eq_map, List.sum_ofFn]
  rfl

/-- C74. The post-nonlinear time series with functions of single numbers and no hidden size: at every step the value of a node is
the sum over the nodes of the outer function of (the inner function of the masked values, added up over the lags, plus noise), with
the same functions at every step. -/
theorem c74_pnl (d : LagPnlDraw n K) (lags : Nat) (A : Nat → Matrix (Fin n) (Fin n) K) {maxLag : Option Nat}
    (len : Nat) {nt : NoiseType} {sc : Scale K} {sv : Fin n → K} {f1 f2 : FnSpec} {g1 g2 : K → K} (ht : nt.Additive)
    (hs : ScaleOf sc sv) (hm : maxLag = none ∨ maxLag = some lags) (hf1 : ElemOf d.elem f1 g1) (hf2 : ElemOf d.elem f2 g2) :
    ∃ out, lagPnl d lags A maxLag (some len) nt sc f1 f2 none = Except.ok out ∧ out.length = lags + len ∧
      (∀ k < lags, ∀ c, rowAt out k c = sv c * d.start nt (k, c)) ∧
      ∀ t < len, ∀ j, rowAt out (lags + t) j =
        ∑ i : Fin n, g2 (∑ k ∈ Finset.range lags, g1 (rowAt out (t + k) i * A k i j) + sv j * d.noise t nt (i.val, j)) := by
  have h0 : ¬ (nt = .other ∨ nt = .logistic ∨ nt = .poisson) := by rcases ht with rfl | rfl | rfl | rfl | rfl <;> simp
  have h3 : maxLag.getD lags = lags := by rcases hm with rfl | rfl <;> rfl
  have a1 : f1.accepted = true := by rcases hf1 with ⟨rfl, _⟩ | ⟨rfl, _⟩ <;> rfl
  have a2 : f2.accepted = true := by rcases hf2 with ⟨rfl, _⟩ | ⟨rfl, _⟩ <;> rfl
  have st : ∀ t win, stepPnl d nt sv A f1 f2 n t win = Except.ok (fun j => ∑ i : Fin n,
      g2 (∑ k ∈ Finset.range win.length, g1 (rowAt win k i * A k i j) + d.noise t nt (i.val, j) * sv j)) := by
    intro t win
    unfold stepPnl
    rw [genNoise_add ht, ok_bind, mapM_all (fun j => lagPnlValue_elem d hf1 hf2 _ A j win), ok_bind]
    show Except.ok _ = _
    congr 1
    funext j
    rw [vals_getD]
  obtain ⟨out, ho⟩ := lagLoop_ok (step := stepPnl d nt sv A f1 f2 n) (L := lags) (fun t win _ => ⟨_, st t win⟩)
    (start := (List.range lags).map (fun k c => d.start nt (k, c) * sv c)) (by simp) len
  have sp := lagLoop_spec ho
  rw [List.length_map, List.length_range] at sp
  obtain ⟨l1, l2, l3⟩ := sp
  refine ⟨out, ?_, l1, fun k hk c => ?_, fun t ht' j => ?_⟩
  · simp only [lagPnl, if_neg h0, a1, a2, h3, scaleVec_of hs, startRows_add ht, ok_bind, ne_eq, not_true_eq_false,
      if_false, Bool.not_true, Bool.or_self, Bool.false_eq_true, Option.getD_none, false_and]
    exact ho
  · rw [l2 k hk, rowAt_start _ hk, mul_comm]
  · have := l3 t ht'
    rw [st] at this
    have wl : ((out.drop t).take lags).length = lags := by simp; omega
    rw [wl] at this
    rw [← congrFun (Except.ok.inj this) j]
    refine Finset.sum_congr rfl fun i _ => ?_
    rw [mul_comm (sv j)]
    congr 2
    refine Finset.sum_congr rfl fun k hk => ?_
    have := rowAt_window out (t := t) (Finset.mem_range.1 hk)
    rw [← this]
    rfl

/-- C74. An outer function that begins with a function of single numbers and has a 'cos' but no 'linear' after it is accepted, but
fails with more than one node: the width it asks for is that of its output, 1. -/
theorem c74_cos (d : LagPnlDraw n K) (lags : Nat) (A : Nat → Matrix (Fin n) (Fin n) K) {maxLag : Option Nat} (len : Nat)
    {nt : NoiseType} {sc : Scale K} {sv : Fin n → K} (f1 : FnSpec) {u : Fn} {us : List Fn} (ht : nt.Additive)
    (hs : ScaleOf sc sv) (hm : maxLag = none ∨ maxLag = some lags) (h1 : f1.accepted = true)
    (h2 : (FnSpec.seq (u :: us)).accepted = true) (hu : ¬ u.IsMat) (hus : Fn.linear ∉ us) (hc : Fn.cos ∈ us) (hn : 1 < n)
    (hl : 0 < len) : lagPnl d lags A maxLag (some len) nt sc f1 (.seq (u :: us)) none = Except.error .value := by
  have h0 : ¬ (nt = .other ∨ nt = .logistic ∨ nt = .poisson) := by rcases ht with rfl | rfl | rfl | rfl | rfl <;> simp
  have h3 : maxLag.getD lags = lags := by rcases hm with rfl | rfl <;> rfl
  have val : ∀ noise (j : Fin n) rows, lagPnlValue d f1 (.seq (u :: us)) n noise j rows = Except.error .value := by
    intro noise j rows
    unfold lagPnlValue
    obtain ⟨bs, hb, _, hlen⟩ := mapM_ok (P := fun y : List K => y.length = n)
      (fun r : Row n K => runLayers (pnlLayers d.elem (d.w1 j) f1 n n n) ((List.finRange n).map r)) rows (fun r _ => by
        have := layers_equal d.elem (d.w1 j) f1 ((List.finRange n).map r)
        rwa [List.length_map, List.length_finRange] at this)
    rw [hb, ok_bind]
    have e : addRow (sumRows n bs) ((List.range n).map (fun c => noise (c, j))) =
        Except.ok (List.zipWith (· + ·) (sumRows n bs) ((List.range n).map (fun c => noise (c, j)))) :=
      if_pos (by simp [(sumRows_spec bs n hlen).1])
    rw [e, ok_bind]
    have hlz : (List.zipWith (· + ·) (sumRows n bs) ((List.range n).map (fun c => noise (c, j)))).length = n := by
      simp [(sumRows_spec bs n hlen).1]
    have bad := (c72_layers d.elem (d.w2 j) u us 1 n
      (List.zipWith (· + ·) (sumRows n bs) ((List.range n).map (fun c => noise (c, j))))).2.2 hu
      (by rw [hlz, if_neg hus]; omega) ⟨.cos, hc, Or.inl rfl⟩
    rw [hlz] at bad
    rw [bad]
    rfl
  have st : ∀ t win, stepPnl d nt sv A f1 (.seq (u :: us)) n t win = Except.error .value := by
    intro t win
    unfold stepPnl
    rw [genNoise_add ht, ok_bind]
    obtain ⟨m, rfl⟩ : ∃ m, n = m + 1 := ⟨n - 1, by omega⟩
    rw [List.finRange_succ, mapM_head_error (f := fun j => lagPnlValue d f1 (.seq (u :: us)) (m + 1) _ j (maskRows A j win)) (val _ 0 _)]
    rfl
  simp only [lagPnl, if_neg h0, h1, h2, h3, scaleVec_of hs, startRows_add ht, ok_bind, ne_eq, not_true_eq_false,
    if_false, Bool.not_true, Bool.or_self, Bool.false_eq_true, Option.getD_none, false_and]
  obtain ⟨m, rfl⟩ : ∃ m, len = m + 1 := ⟨len - 1, by omega⟩
  unfold lagLoop
  rw [List.range_succ_eq_map, List.foldlM_cons]
  simp only [st]
  rfl

end

/-! ### Cases -/

/-- Draws: start `k + c`, noise `t`, a binomial draw that answers 1 above 3. -/
def exLag : LagDraw 2 ℚ where
  start := fun _ p => (p.1 : ℚ) + p.2
  noise := fun t _ _ => t
  binomial := fun _ _ p => if p > 3 then 1 else 0
  sigmoid := id

/-- Two lags; the matrix of lag index `k` has `k + 1` at `(0, 1)` and 1 at `(1, 0)`. -/
def exLagW (k : Nat) : Matrix (Fin 2) (Fin 2) ℚ := fun i j => if i = 0 ∧ j = 1 then k + 1 else if i = 1 ∧ j = 0 then 1 else 0

example : ∃ out, lagLinear exLag 2 exLagW none (some 3) .gauss (.vec [1, 2]) = Except.ok out ∧ out.length = 2 + 3 ∧
    (∀ k < 2, ∀ c, rowAt out k c = ![1, 2] c * ((k : ℚ) + c)) ∧
    ∀ t < 3, ∀ c, rowAt out (2 + t) c =
      ∑ k ∈ Finset.range 2, ∑ i, rowAt out (t + k) i * exLagW k i c + ![1, 2] c * t :=
  c73_linear exLag 2 exLagW (some 3) (by decide) (Or.inr (Or.inr rfl)) (Or.inl rfl)

/-- The rows of that series. -/
example : (match lagLinear exLag 2 exLagW none (some 3) .gauss (.vec [1, 2]) with
    | .ok out => decide (out.map (fun r => [r 0, r 1]) = [[0, 2], [1, 4], [6, 2], [7, 15], [19, 24]])
    | _ => false) = true := by decide +kernel

example : ∃ out, lagLinear exLag 2 exLagW (some 2) (some 3) .logistic .default = Except.ok out ∧ out.length = 2 + 3 ∧
    (∀ k < 2, ∀ c, rowAt out k c = 1 * ((k : ℚ) + c)) ∧
    ∀ t < 3, ∀ c, rowAt out (2 + t) c = exLag.binomial t c (exLag.sigmoid
      (∑ k ∈ Finset.range 2, ∑ i, rowAt out (t + k) i * exLagW k i c)) :=
  c73_logistic exLag 2 exLagW (some 3) (Or.inl ⟨rfl, rfl⟩) (Or.inr rfl)

example : lagLinear exLag 2 exLagW (some 3) none .gauss .default = Except.error .value :=
  c73_refused exLag 2 exLagW (by decide) none (by decide) _

/-- Draws of the non-linear series: one unit, an outer weight equal to the step. -/
def exLagNl : LagNonlinDraw 1 ℚ where
  start := fun _ _ => 0
  noise := fun _ _ _ => 0
  w1 := fun _ _ _ _ => 1
  w2 := fun t _ _ => t
  m1 := fun _ _ _ => 1
  m2 := fun _ _ _ => 1
  m3 := fun _ _ _ => 1
  sigmoid := fun _ => 1
  tanh := id
  cos := id
  sin := id

example : ∃ out, lagNonlinear exLagNl 1 (fun _ => 1) none (some 2) .gauss .default .mlp (some 1) = Except.ok out ∧
    out.length = 1 + 2 ∧ (∀ k < 1, ∀ c, rowAt out k c = 1 * 0) ∧
    ∀ t < 2, ∀ j, rowAt out (1 + t) j =
      LagPart exLagNl 1 (fun _ => 1) .mlp 1 t j (fun k => rowAt out (t + k)) + 1 * 0 :=
  c74_nonlinear_partial exLagNl 1 (fun _ => 1) (some 2) (some 1) (by decide) (Or.inl ⟨rfl, rfl⟩) (Or.inl rfl) (by decide)

/-- C74 fails: there are draws for which no function of the window, one for every node, explains the series. The weights are drawn
anew at every step, so the same window gives different values without noise. -/
theorem c74_false : ∃ out, lagNonlinear exLagNl 1 (fun _ => 1) none (some 2) .gauss .default .mlp (some 1) = Except.ok out ∧
    ¬ ∃ f : Fin 1 → Row 1 ℚ → ℚ, ∀ t < 2, ∀ j, rowAt out (1 + t) j = f j (rowAt out t) + exLagNl.noise t .gauss j := by
  obtain ⟨out, h, _, h0, ht⟩ := c74_nonlinear_partial exLagNl 1 (fun _ => 1) (maxLag := none) (some 2) (nt := .gauss) (some 1)
    (by decide) (sc := .default) (Or.inl ⟨rfl, rfl⟩) (Or.inl rfl) (func := .mlp) (by decide)
  refine ⟨out, h, ?_⟩
  rintro ⟨f, hf⟩
  have a0 : rowAt out 0 = fun _ => 0 := by funext c; rw [h0 0 (by decide) c]; simp [exLagNl]
  have b0 := ht 0 (by decide)
  have b1 := ht 1 (by decide) 0
  have a1 : rowAt out 1 = fun _ => 0 := by
    funext c
    have := b0 c
    simpa [LagPart, exLagNl] using this
  have c0 := hf 0 (by decide) 0
  have c1 := hf 1 (by decide) 0
  simp only [LagPart, exLagNl] at b1
  simp only [exLagNl, a0, a1, add_zero] at c0 c1
  rw [b1] at c1
  simp at c1
  rw [← c0] at c1
  exact absurd c1 one_ne_zero

/-- Draws of the post-nonlinear series: doubling for both functions, all weights 1. -/
def exLagPnl : LagPnlDraw 2 ℚ where
  start := fun _ p => (p.1 : ℚ) + p.2
  noise := fun t _ p => (t : ℚ) + p.1
  w1 := fun _ _ _ _ => 1
  w2 := fun _ _ _ _ => 1
  elem := ⟨fun x => 2 * x, fun x => 3 * x, fun x => x⟩

example : ∃ out, lagPnl exLagPnl 2 exLagW none (some 2) .gauss (.scalar 5) (.one .tanh) (.one .leakyRelu) none = Except.ok out ∧
    out.length = 2 + 2 ∧ (∀ k < 2, ∀ c, rowAt out k c = 5 * ((k : ℚ) + c)) ∧
    ∀ t < 2, ∀ j, rowAt out (2 + t) j = ∑ i : Fin 2, 3 * (∑ k ∈ Finset.range 2, 2 * (rowAt out (t + k) i * exLagW k i j) +
      5 * ((t : ℚ) + (i.val : ℚ))) :=
  c74_pnl exLagPnl 2 exLagW 2 (by decide) (Or.inr (Or.inl ⟨5, rfl, rfl⟩)) (Or.inl rfl) (Or.inl ⟨rfl, rfl⟩) (Or.inr ⟨rfl, rfl⟩)

example : lagPnl exLagPnl 2 exLagW none none .gauss (.scalar 5) (.one .tanh) (.one .leakyRelu) none = Except.error .type :=
  c74_length exLagPnl 2 exLagW _ _ (by decide) (Or.inr (Or.inl ⟨5, rfl, rfl⟩)) (Or.inl rfl) rfl rfl

example : lagPnl exLagPnl 2 exLagW none (some 1) .gauss .default (.one .tanh) (.seq [.tanh, .cos]) none = Except.error .value :=
  c74_cos exLagPnl 2 exLagW 1 _ (by decide) (Or.inl ⟨rfl, rfl⟩) (Or.inl rfl) rfl rfl (by decide) (by decide) (by decide)
    (by decide) (by decide)

end Cdmir.Sim
