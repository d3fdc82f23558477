import Mathlib.Algebra.Order.BigOperators.Ring.Finset
import Mathlib.Tactic.Linarith
import Mathlib.Tactic.NormNum
import Mathlib.Tactic.Positivity
import Mathlib.Tactic.FinCases
import Mathlib.Data.Rat.Floor
import Verif.Model.Minimize

/-!
Properties C105-C107 of `minimize` (cdmir/utils/local_score/score_utils.py L112-L311).
-/

namespace Cdmir.Minimize

set_option linter.unusedSectionVars false

variable {F : Type _} [Field F] [LinearOrder F] [IsStrictOrderedRing F] {n : ℕ}

theorem inner_self_nonneg (k : Kind) (u : Fin (n + 1) → F) : 0 ≤ inner k u u := by
  cases k with
  | matrix => exact Finset.sum_nonneg fun i _ => mul_self_nonneg (u i)
  | array => exact mul_self_nonneg (u 0)

theorem nextExt_pos (E : Env F) {f1 d1 x2 f2 d2 : F} (h : 0 < x2) : 0 < nextExt E 0 f1 d1 x2 f2 d2 := by
  have h3 : 0 < x2 * (EXT : F) := mul_pos h (by norm_num [EXT])
  have hI : (0 : F) < INT := by norm_num [INT]
  have h4 : 0 < x2 + INT * (x2 - 0) := by have := mul_pos hI h; simpa using add_pos h this
  unfold nextExt
  split
  · exact h3
  · split_ifs with a b c
    · exact h3
    · exact h3
    · exact h4
    · exact lt_of_lt_of_le h4 (not_lt.mp c)

theorem nextInt_mem (E : Env F) {f0 x2 f2 d2 x4 f4 d4 : F} (h : x2 < x4) :
    x2 < nextInt E f0 x2 f2 d2 x4 f4 d4 ∧ nextInt E f0 x2 f2 d2 x4 f4 d4 < x4 := by
  have hw : 0 < x4 - x2 := sub_pos.mpr h
  have h1 : x4 - INT * (x4 - x2) < x4 := by
    have : (0 : F) < INT * (x4 - x2) := mul_pos (by norm_num [INT]) hw
    linarith
  have h2 : x2 < x2 + INT * (x4 - x2) := by
    have : (0 : F) < INT * (x4 - x2) := mul_pos (by norm_num [INT]) hw
    linarith
  have h3 : x2 + INT * (x4 - x2) < x4 := by
    have : INT * (x4 - x2) < (x4 - x2 : F) := by
      have : (INT : F) < 1 := by norm_num [INT]
      nlinarith
    linarith
  exact ⟨lt_of_lt_of_le h2 (le_max_right _ _), max_lt (lt_of_le_of_lt (min_le_right _ _) h1) h3⟩

theorem tries_spec (L : Line F n) (M : ℕ) (x3 : F) (hx : 0 < x3) :
    (tries L M x3).1 ≤ M ∧ (0 < M → (tries L M x3).1 < M) ∧ 0 < (tries L M x3).2.1 ∧
      (∀ v, (tries L M x3).2.2 = some v → L.obj (L.at (tries L M x3).2.1) = .ok v.1 v.2) ∧
      ((tries L M x3).2.2 = none → (tries L M x3).1 = 0) := by
  induction M generalizing x3 with
  | zero => simp [tries, hx]
  | succ M ih =>
    unfold tries
    split
    · rename_i f df h
      refine ⟨by omega, fun _ => by simp, hx, ?_, by simp⟩
      intro v hv
      simp only [Option.some.injEq] at hv
      subst hv
      exact h
    · obtain ⟨a, _, c, d, e⟩ := ih ((0 + x3) / 2) (by linarith)
      exact ⟨by omega, fun _ => by omega, c, d, e⟩

/-- The best point is one that was evaluated, and is no worse than the start of the line. -/
def Good (L : Line F n) (b : Best F n) : Prop := L.obj b.X = .ok b.f b.df ∧ b.f ≤ L.f0

theorem Good.upd {L : Line F n} {b : Best F n} (h : Good L b) {x : F} {f : F} {df : Fin (n + 1) → F}
    (hx : L.obj (L.at x) = .ok f df ∨ f = L.f0) : Good L (b.upd (L.at x) f df) := by
  unfold Best.upd
  split_ifs with c
  · rcases hx with hx | hx
    · exact ⟨hx, le_of_lt (lt_of_lt_of_le c h.2)⟩
    · exact absurd (lt_of_lt_of_le c h.2) (by simp [hx])
  · exact h

theorem upd_le (b : Best F n) (X : Fin (n + 1) → F) (f : F) (df : Fin (n + 1) → F) :
    (b.upd X f df).f ≤ b.f ∧ (b.upd X f df).f ≤ f := by
  unfold Best.upd
  split_ifs with c
  · exact ⟨c.le, le_rfl⟩
  · exact ⟨le_rfl, not_lt.mp c⟩

theorem extrap_spec (E : Env F) (L : Line F n) (fuel M : ℕ) (x3 : F) (b : Best F n) (hf : M < fuel) (hx : 0 < x3)
    (hb : Good L b) :
    ∃ p, extrap E L fuel M x3 b = .ok p ∧ p.M ≤ M ∧ (0 < M → p.M < M) ∧ 0 < p.x3 ∧ Good L p.best ∧
      (L.obj (L.at p.x3) = .ok p.f3 p.df3 ∨ p.f3 = L.f0) ∧ p.d3 = inner L.kind p.df3 L.s ∧
      (p.d3 > SIG * L.d0 ∨ L.high p.x3 p.f3 ∨ p.M = 0) := by
  induction fuel generalizing M x3 b with
  | zero => omega
  | succ fuel ih =>
    obtain ⟨h1, h2, h3, h4, h5⟩ := tries_spec L M x3 hx
    unfold extrap
    simp only
    have hv : L.obj (L.at (tries L M x3).2.1) = .ok ((tries L M x3).2.2.getD (L.f0, L.df0)).1
        ((tries L M x3).2.2.getD (L.f0, L.df0)).2 ∨ ((tries L M x3).2.2.getD (L.f0, L.df0)).1 = L.f0 := by
      cases hr : (tries L M x3).2.2 with
      | none => right; rfl
      | some v => left; exact h4 v hr
    split_ifs with c
    · exact ⟨_, rfl, h1, h2, h3, hb.upd hv, hv, rfl, c⟩
    · push Not at c
      have hM : (tries L M x3).1 < fuel := by
        rcases Nat.eq_zero_or_pos M with h0 | h0
        · exact absurd (by omega) c.2.2
        · have := h2 h0; omega
      obtain ⟨p, e, a1, a2, a3⟩ := ih (tries L M x3).1 _ _ hM
        (nextExt_pos E (f1 := L.f0) (d1 := L.d0) (f2 := ((tries L M x3).2.2.getD (L.f0, L.df0)).1)
          (d2 := inner L.kind ((tries L M x3).2.2.getD (L.f0, L.df0)).2 L.s) h3) (hb.upd hv)
      exact ⟨p, e, by omega, fun h0 => by have := h2 h0; omega, a3⟩

theorem interp_spec (E : Env F) (L : Line F n) (M : ℕ) (p2 : F × F × F) (p4 : Option (F × F × F))
    (x3 f3 : F) (df3 : Fin (n + 1) → F) (d3 : F) (b : Best F n) (h2 : 0 ≤ p2.1) (h23 : p2.1 < x3)
    (h34 : ∀ q, p4 = some q → x3 < q.1) (h4 : p4 = none → M = 0 ∨ d3 > SIG * L.d0 ∨ L.high x3 f3) (hb : Good L b)
    (hf : L.obj (L.at x3) = .ok f3 df3 ∨ f3 = L.f0) (h3 : d3 = inner L.kind df3 L.s) :
    match interp E L M p2 p4 x3 f3 df3 d3 b with
    | .error e => ∃ Y, L.obj Y = .raise e
    | .ok r => r.M ≤ M ∧ Good L r.best ∧
        ∀ l, r.last = some l → 0 < l.1 ∧ (L.obj (L.at l.1) = .ok l.2.1 l.2.2.1 ∨ l.2.1 = L.f0) ∧
          l.2.2.2 = inner L.kind l.2.2.1 L.s := by
  induction M generalizing p2 p4 x3 f3 df3 d3 b with
  | zero =>
    unfold interp
    refine ⟨le_rfl, hb, ?_⟩
    rintro l h
    simp only [Option.some.injEq] at h
    subst h
    exact ⟨lt_of_le_of_lt h2 h23, hf, h3⟩
  | succ M ih =>
    unfold interp
    by_cases c : L.more x3 f3 d3
    · simp only [c, if_true]
      by_cases u : d3 > 0 ∨ L.high x3 f3
      · have hm := nextInt_mem E (f0 := L.f0) (f2 := p2.2.1) (d2 := p2.2.2) (f4 := f3) (d4 := d3) h23
        simp only [u, decide_true, if_true]
        cases ho : L.obj (L.at (nextInt E L.f0 p2.1 p2.2.1 p2.2.2 x3 f3 d3)) with
        | raise e => exact ⟨_, ho⟩
        | nan => exact ⟨by simp, hb, by simp⟩
        | ok f df =>
          have := ih p2 (some (x3, f3, d3)) _ f df (inner L.kind df L.s) _ h2 hm.1 (by rintro q ⟨⟩; exact hm.2) (by simp)
            (hb.upd (x := nextInt E L.f0 p2.1 p2.2.1 p2.2.2 x3 f3 d3) (f := f) (df := df) (Or.inl ho)) (Or.inl ho) rfl
          revert this
          simp only
          cases interp E L M p2 (some (x3, f3, d3)) (nextInt E L.f0 p2.1 p2.2.1 p2.2.2 x3 f3 d3) f df
            (inner L.kind df L.s) (b.upd (L.at (nextInt E L.f0 p2.1 p2.2.1 p2.2.2 x3 f3 d3)) f df) with
          | error e => exact id
          | ok r => rintro ⟨a, b⟩; exact ⟨by omega, b⟩
      · simp only [u, decide_false, if_false, Bool.false_eq_true]
        cases hp : p4 with
        | none =>
          exfalso
          push Not at u
          rcases h4 hp with h | h | h
          · omega
          · rcases c with c | c
            · rw [abs_of_nonpos u.1] at c
              have : -SIG * L.d0 = -(SIG * L.d0) := by ring
              rw [this] at c
              linarith
            · exact u.2 c
          · exact u.2 h
        | some q =>
          have hq := h34 q hp
          have hm := nextInt_mem E (f0 := L.f0) (f2 := f3) (d2 := d3) (f4 := q.2.1) (d4 := q.2.2) hq
          simp only
          cases ho : L.obj (L.at (nextInt E L.f0 x3 f3 d3 q.1 q.2.1 q.2.2)) with
          | raise e => exact ⟨_, ho⟩
          | nan => exact ⟨by simp, hb, by simp⟩
          | ok f df =>
            have := ih (x3, f3, d3) (some q) _ f df (inner L.kind df L.s) _ (le_of_lt (lt_of_le_of_lt h2 h23)) hm.1
              (by rintro q' h; simp only [Option.some.injEq] at h; subst h; exact hm.2) (by simp)
              (hb.upd (x := nextInt E L.f0 x3 f3 d3 q.1 q.2.1 q.2.2) (f := f) (df := df) (Or.inl ho)) (Or.inl ho) rfl
            revert this
            simp only
            cases interp E L M (x3, f3, d3) (some q) (nextInt E L.f0 x3 f3 d3 q.1 q.2.1 q.2.2) f df
              (inner L.kind df L.s) (b.upd (L.at (nextInt E L.f0 x3 f3 d3 q.1 q.2.1 q.2.2)) f df) with
            | error e => exact id
            | ok r => rintro ⟨a, b⟩; exact ⟨by omega, b⟩
    · simp only [c, if_false]
      refine ⟨le_rfl, hb, ?_⟩
      rintro l h
      simp only [Option.some.injEq] at h
      subst h
      exact ⟨lt_of_le_of_lt h2 h23, hf, h3⟩

/-- What holds at the head of the outer loop. -/
structure Inv (obj : (Fin (n + 1) → F) → Ev F (Fin (n + 1) → F)) (length : ℤ) (f0 : F) (st : St F n) : Prop where
  val : obj st.X = .ok st.f0 st.df0
  slope : st.d0 ≤ 0
  pos : 0 < st.x3
  low : ∀ v ∈ st.fX, st.f0 ≤ v
  dec : st.fX.Pairwise (· > ·)
  first : st.fX.head? = some f0
  count : st.i ≤ length.natAbs
  short : st.fX.length ≤ st.i + 1

/-- The Wolfe-Powell conditions for a pass that records a new value: the new point lies on the search line ahead of the old
one, the value dropped by at least a twentieth of what the slope promises, and the slope shrank to a tenth. -/
def Wolfe (obj : (Fin (n + 1) → F) → Ev F (Fin (n + 1) → F)) (k : Kind) (st st' : St F n) : Prop :=
  ∃ t, 0 < t ∧ (∀ j, st'.X j = st.X j + t * st.s j) ∧ obj st'.X = .ok st'.f0 st'.df0 ∧
    st'.f0 < st.f0 + t * (1 / 20) * st.d0 ∧ |inner k st'.df0 st.s| < -(1 / 10) * st.d0 ∧ st'.fX = st.fX ++ [st'.f0]

theorem neg_inner_neg (k : Kind) (u : Fin (n + 1) → F) :
    -inner k (fun i => -u i) (fun i => -u i) = inner k u fun i => -u i := by
  cases k with
  | matrix => simp [inner]
  | array => simp [inner]

theorem step_spec (E : Env F) (hE : 0 < E.tiny) (obj : (Fin (n + 1) → F) → Ev F (Fin (n + 1) → F)) (k : Kind) (length : ℤ)
    (f0 : F) (st : St F n) (h : Inv obj length f0 st) (hi : st.i < length.natAbs) :
    match step E obj k length st with
    | .error e => (∃ Y, obj Y = .raise e) ∨ (e = .notImplemented ∧ k = .array ∧ n ≠ 0 ∧ st.d0 < 0)
    | .ok r => Inv obj length f0 r.1 ∧ st.i < r.1.i ∧ 
        (r.2 = false → r.1.d0 = inner k r.1.df0 r.1.s) ∧ (r.1.fX = st.fX ∧ r.1.f0 ≤ st.f0 ∨ Wolfe obj k st r.1) := by
  unfold step
  set L : Line F n := ⟨obj, k, st.X, st.s, st.f0, st.df0, st.d0⟩ with hL
  set M := if length > 0 then MAX else min MAX (length.natAbs - st.i) with hM
  have hM0 : 0 < M := by
    rw [hM]; split_ifs
    · simp [MAX]
    · simp only [MAX]; omega
  obtain ⟨p, hp, p1, p2, p3, p4, p5, p6, p7⟩ := extrap_spec E L (M + 1) M st.x3 ⟨st.X, st.f0, st.df0⟩ (by omega) h.pos
    ⟨h.val, le_rfl⟩
  have hs := interp_spec E L p.M (0, st.f0, st.d0) none p.x3 p.f3 p.df3 p.d3 p.best le_rfl p3 (by simp)
    (fun _ => by tauto) p4 p5 p6
  simp only [hp, bind, Except.bind]
  cases he : interp E L p.M (0, st.f0, st.d0) none p.x3 p.f3 p.df3 p.d3 p.best with
  | error e =>
    rw [he] at hs
    obtain ⟨Y, hY⟩ := hs
    exact Or.inl ⟨Y, hY⟩
  | ok e =>
    rw [he] at hs
    obtain ⟨e1, e2, e3⟩ := hs
    have hlt : st.i < (if length > 0 then st.i + 1 else st.i + (M - e.M)) := by
      have := p2 hM0
      split_ifs <;> omega
    have hle : (if length > 0 then st.i + 1 else st.i + (M - e.M)) ≤ length.natAbs := by
      split_ifs with c
      · omega
      · rw [hM, if_neg c]; omega
    simp only
    generalize (if length > 0 then st.i + 1 else st.i + (M - e.M)) = I at hlt hle ⊢
    cases hl : e.last.filter fun l => decide (|l.2.2.2| < -SIG * st.d0 ∧ l.2.1 < st.f0 + l.1 * RHO * st.d0) with
    | none =>
      simp only
      split_ifs with c
      · exact ⟨⟨e2.1, h.slope, h.pos, fun v hv => le_trans e2.2 (h.low v hv), h.dec, h.first, hle, by
          have := h.short; simp only; omega⟩, hlt, by simp, Or.inl ⟨rfl, e2.2⟩⟩
      · have hd : -inner k (fun i => -e.best.df i) (fun i => -e.best.df i) ≤ 0 := by
          have := inner_self_nonneg k (fun i => -e.best.df i); linarith
        exact ⟨⟨e2.1, hd, div_pos one_pos (by linarith), fun v hv => le_trans e2.2 (h.low v hv), h.dec, h.first, hle, by
          have := h.short; simp only; omega⟩, hlt, fun _ => neg_inner_neg k e.best.df, Or.inl ⟨rfl, e2.2⟩⟩
    | some l =>
      obtain ⟨hl1, hl2⟩ := Option.filter_eq_some_iff.mp hl
      obtain ⟨x3, f3, df3, d3⟩ := l
      simp only [decide_eq_true_eq] at hl2
      obtain ⟨e4, e5, e6⟩ := e3 _ hl1
      simp only at e4 e5 e6
      have hd0 : st.d0 < 0 := by
        have h1 := lt_of_le_of_lt (abs_nonneg _) hl2.1
        have h2 : (0 : F) < SIG := by norm_num [SIG]
        nlinarith
      have hR : (0 : F) < RHO := by norm_num [RHO, SIG]
      have hlow : f3 < st.f0 := by
        have : x3 * RHO * st.d0 < 0 := mul_neg_of_pos_of_neg (mul_pos e4 hR) hd0
        linarith [hl2.2]
      have hobj : obj (L.at x3) = .ok f3 df3 := by
        rcases e5 with e5 | e5
        · exact e5
        · exact absurd e5 (ne_of_lt hlow)
      have hfin : ∀ s, ∀ d0 ≤ 0, Inv obj length f0 ⟨L.at x3, f3, df3, s, d0, x3 * min RATIO (st.d0 / (d0 - E.tiny)),
          I, false, st.fX ++ [f3]⟩ := by
        intro s d0 hd
        refine ⟨hobj, hd, mul_pos e4 (lt_min (by norm_num [RATIO]) (div_pos_of_neg_of_neg hd0 (by linarith))), ?_, ?_, ?_,
          hle, ?_⟩
        · intro v hv
          rcases List.mem_append.mp hv with hv | hv
          · exact le_trans hlow.le (h.low v hv)
          · simp only [List.mem_singleton] at hv; simp [hv]
        · refine List.pairwise_append.mpr ⟨h.dec, by simp, ?_⟩
          intro v hv w hw
          simp only [List.mem_singleton] at hw
          subst hw
          exact lt_of_lt_of_le hlow (h.low v hv)
        · simp only [List.head?_append, h.first, Option.some_or]
        · have := h.short
          simp only [List.length_append, List.length_cons, List.length_nil]
          omega
      simp only
      cases hn : newDir k st.df0 df3 st.s with
      | error e' =>
        right
        cases k with
        | matrix => simp [newDir] at hn
        | array =>
          simp only [newDir] at hn
          split_ifs at hn with c
          simp only [Except.error.injEq] at hn
          exact ⟨hn.symm, rfl, c, hd0⟩
      | ok s =>
        refine ⟨hfin _ _ ?_, hlt, fun _ => ?_, Or.inr ⟨x3, e4, fun _ => rfl, hobj, ?_, ?_, rfl⟩⟩
        · split_ifs with c
          · have := inner_self_nonneg k (fun i => -df3 i); linarith
          · exact not_lt.mp c
        · simp only
          split_ifs with c
          · exact neg_inner_neg k df3
          · rfl
        · have h5 : (RHO : F) = 1 / 20 := by norm_num [RHO, SIG]
          have := hl2.2
          rw [h5] at this
          exact this
        · have := hl2.1
          rw [e6] at this
          exact this

theorem loop_spec (E : Env F) (hE : 0 < E.tiny) (obj : (Fin (n + 1) → F) → Ev F (Fin (n + 1) → F)) (k : Kind) (length : ℤ)
    (f0 : F) (fuel : ℕ) (st : St F n) (h : Inv obj length f0 st) (hf : length.natAbs ≤ st.i + fuel) :
    match loop E obj k length fuel st with
    | .error e => (∃ Y, obj Y = .raise e) ∨ (e = .notImplemented ∧ k = .array ∧ n ≠ 0)
    | .ok r => Inv obj length f0 r := by
  induction fuel generalizing st with
  | zero =>
    unfold loop
    rw [if_neg (by omega)]
    exact h
  | succ fuel ih =>
    unfold loop
    split_ifs with c
    · have hs := step_spec E hE obj k length f0 st h c
      cases he : step E obj k length st with
      | error e =>
        rw [he] at hs
        rcases hs with hs | ⟨h1, h2, h3, _⟩
        · exact Or.inl hs
        · exact Or.inr ⟨h1, h2, h3⟩
      | ok r =>
        obtain ⟨st', b⟩ := r
        rw [he] at hs
        cases b with
        | true => exact hs.1
        | false => exact ih st' hs.1 (by have := hs.2.1; simp only at this; omega)
    · exact h

theorem minimize_spec (E : Env F) (hE : 0 < E.tiny) (obj : (Fin (n + 1) → F) → Ev F (Fin (n + 1) → F)) (k : Kind)
    (X : Fin (n + 1) → F) (length : ℤ) {red : F} (hr : 0 < red) {f0 : F} {df0 : Fin (n + 1) → F}
    (h0 : obj X = .ok f0 df0) :
    match minimize E obj k X length red with
    | .error e => (∃ Y, obj Y = .raise e) ∨ (e = .notImplemented ∧ k = .array ∧ n ≠ 0)
    | .ok r => (∃ v g, obj r.1 = .ok v g ∧ ∀ w ∈ r.2.1, v ≤ w) ∧ r.2.1.head? = some f0 ∧ r.2.1.Pairwise (· > ·) ∧
        r.2.2 ≤ length.natAbs ∧ r.2.1.length ≤ r.2.2 + 1 := by
  have hd : -inner k (fun i => -df0 i) (fun i => -df0 i) ≤ 0 := by
    have := inner_self_nonneg k (fun i => -df0 i); linarith
  have hi : Inv obj length f0 (⟨X, f0, df0, fun i => -df0 i, -inner k (fun i => -df0 i) (fun i => -df0 i),
      red / (1 - -inner k (fun i => -df0 i) (fun i => -df0 i)), if length < 0 then 1 else 0, false, [f0]⟩ : St F n) :=
    ⟨h0, hd, div_pos hr (by linarith), by simp, by simp, rfl, by simp only; split_ifs <;> omega, by simp⟩
  have hs := loop_spec E hE obj k length f0 length.natAbs _ hi (by omega)
  unfold minimize
  simp only [h0]
  revert hs
  cases loop E obj k length length.natAbs (⟨X, f0, df0, fun i => -df0 i, -inner k (fun i => -df0 i) (fun i => -df0 i),
      red / (1 - -inner k (fun i => -df0 i) (fun i => -df0 i)), if length < 0 then 1 else 0, false, [f0]⟩ : St F n) with
  | error e => exact id
  | ok st => exact fun h => ⟨⟨_, _, h.val, h.low⟩, h.first, h.dec, h.count, h.short⟩

/-- C105, the result. Whatever the objective, if `minimize` returns, then the value at the returned point is no more than
every recorded value, the first recorded value is the one at the start, the recorded values go down strictly, and the
count is at most the limit. So the returned point is never worse than the start. -/
theorem c105_result (E : Env F) (hE : 0 < E.tiny) (obj : (Fin (n + 1) → F) → Ev F (Fin (n + 1) → F)) (k : Kind)
    (X : Fin (n + 1) → F) (length : ℤ) {red : F} (hr : 0 < red) {f0 : F} {df0 : Fin (n + 1) → F}
    (h0 : obj X = .ok f0 df0) {Y : Fin (n + 1) → F} {fX : List F} {i : ℕ}
    (h : minimize E obj k X length red = .ok (Y, fX, i)) :
    (∃ v g, obj Y = .ok v g ∧ v ≤ f0 ∧ ∀ w ∈ fX, v ≤ w) ∧ fX.head? = some f0 ∧ fX.Pairwise (· > ·) ∧ i ≤ length.natAbs ∧
      fX.length ≤ i + 1 := by
  have := minimize_spec E hE obj k X length hr h0
  rw [h] at this
  obtain ⟨⟨v, g, h1, h2⟩, h3, h4⟩ := this
  exact ⟨⟨v, g, h1, h2 _ (List.mem_of_head? h3), h2⟩, h3, h4⟩

/-- C105, no error of its own. If the objective never raises and is finite at the start, and the gradient is a matrix or has
one entry, then `minimize` returns: the names `x4`, `f4`, `d4` are never read before they are set, and the loops end. -/
theorem c105_returns (E : Env F) (hE : 0 < E.tiny) (obj : (Fin (n + 1) → F) → Ev F (Fin (n + 1) → F)) (k : Kind)
    (hk : k = .matrix ∨ n = 0) (X : Fin (n + 1) → F) (length : ℤ) {red : F} (hr : 0 < red) {f0 : F}
    {df0 : Fin (n + 1) → F} (h0 : obj X = .ok f0 df0) (hobj : ∀ Y e, obj Y ≠ .raise e) :
    ∃ r, minimize E obj k X length red = .ok r := by
  have := minimize_spec E hE obj k X length hr h0
  cases hm : minimize E obj k X length red with
  | ok r => exact ⟨r, rfl⟩
  | error e =>
    rw [hm] at this
    rcases this with ⟨Y, hY⟩ | ⟨_, h1, h2⟩
    · exact absurd hY (hobj Y e)
    · rcases hk with hk | hk
      · rw [hk] at h1; cases h1
      · exact absurd hk h2

/-- C105, errors. An error of the objective at the start is not caught; a call that returns had a number there; and whatever is raised
is raised by the objective at some point, or is the refusal of a start that is NaN or of a gradient that is an array. -/
theorem c105_raises (E : Env F) (hE : 0 < E.tiny) (obj : (Fin (n + 1) → F) → Ev F (Fin (n + 1) → F)) (k : Kind)
    (X : Fin (n + 1) → F) (length : ℤ) {red : F} (hr : 0 < red) :
    (∀ e, obj X = .raise e → minimize E obj k X length red = .error e) ∧
    (∀ r, minimize E obj k X length red = .ok r → ∃ f0 df0, obj X = .ok f0 df0) ∧
    ∀ e, minimize E obj k X length red = .error e → (∃ Y, obj Y = .raise e) ∨ e = .notImplemented ∧ (obj X = .nan ∨ k = .array ∧ n ≠ 0) := by
  refine ⟨fun e h => by unfold minimize; rw [h], fun r h => ?_, fun e h => ?_⟩
  · cases h0 : obj X with
    | ok f0 df0 => exact ⟨f0, df0, rfl⟩
    | raise e => unfold minimize at h; rw [h0] at h; cases h
    | nan => unfold minimize at h; rw [h0] at h; cases h
  · cases h0 : obj X with
    | ok f0 df0 =>
      have := minimize_spec E hE obj k X length hr h0
      rw [h] at this
      rcases this with h1 | h1
      · exact .inl h1
      · exact .inr ⟨h1.1, .inr h1.2⟩
    | raise e' =>
      unfold minimize at h
      rw [h0] at h
      cases h
      exact .inl ⟨X, h0⟩
    | nan =>
      unfold minimize at h
      rw [h0] at h
      cases h
      exact .inr ⟨rfl, .inl rfl⟩

/-- C105, one pass. From a point with its value and gradient, a slope that is not positive and a positive first step, a pass
that is not the last leaves a direction whose slope is the recorded one and is not positive. If the pass records a value,
the step meets the Wolfe-Powell conditions; if not, the point is no worse than before. -/
theorem c105_pass (E : Env F) (hE : 0 < E.tiny) (obj : (Fin (n + 1) → F) → Ev F (Fin (n + 1) → F)) (k : Kind) (length : ℤ)
    (st : St F n) (hv : obj st.X = .ok st.f0 st.df0) (hs : st.d0 ≤ 0) (hx : 0 < st.x3)
    (hlow : ∀ v ∈ st.fX, st.f0 ≤ v) (hdec : st.fX.Pairwise (· > ·)) (hlen : 0 < st.fX.length ∧ st.fX.length ≤ st.i + 1)
    (hi : st.i < length.natAbs) {st' : St F n} {b : Bool} (h : step E obj k length st = .ok (st', b)) :
    obj st'.X = .ok st'.f0 st'.df0 ∧ (b = false → st'.d0 = inner k st'.df0 st'.s ∧ st'.d0 ≤ 0 ∧ 0 < st'.x3) ∧
      (st'.fX = st.fX ∧ st'.f0 ≤ st.f0 ∨
        ∃ t, 0 < t ∧ (∀ j, st'.X j = st.X j + t * st.s j) ∧ st'.f0 < st.f0 + t * (1 / 20) * st.d0 ∧
          |inner k st'.df0 st.s| < -(1 / 10) * st.d0 ∧ st'.fX = st.fX ++ [st'.f0]) := by
  have hI : Inv obj length (st.fX.head (List.ne_nil_of_length_pos hlen.1)) st :=
    ⟨hv, hs, hx, hlow, hdec, List.head?_eq_some_head _, hi.le, hlen.2⟩
  have := step_spec E hE obj k length _ st hI hi
  rw [h] at this
  obtain ⟨a, _, c, d⟩ := this
  refine ⟨a.val, fun hb => ⟨c hb, a.slope, a.pos⟩, ?_⟩
  rcases d with d | ⟨t, t1, t2, _, t4, t5, t6⟩
  · exact Or.inl d
  · exact Or.inr ⟨t, t1, t2, t4, t5, t6⟩

/-- A square root for the examples: exact on squares of rational numbers. -/
def exSqrt (q : ℚ) : ℚ := (Nat.sqrt q.num.toNat : ℚ) / (Nat.sqrt q.den : ℚ)

/-- The environment of the examples. -/
def exEnv : Env ℚ := ⟨exSqrt, 1 / 1000000⟩

/-- `x²` with its derivative, for the examples. -/
def square (x : Fin 1 → ℚ) : Ev ℚ (Fin 1 → ℚ) := .ok (x 0 * x 0) fun _ => 2 * x 0

/-- The entries of the result, for the examples. -/
def show1 (r : Except Err ((Fin 1 → ℚ) × List ℚ × ℕ)) : Option (ℚ × List ℚ × ℕ) := r.toOption.map fun r => (r.1 0, r.2)

/-- Three passes bring `x²` from 1 to its minimum; the recorded values go down and the count is the limit. -/
example : show1 (minimize exEnv square .matrix (fun _ => 1) (-10) 1) = some (0, [1, 0], 10) := by decide +kernel

example : ∃ v g, square (fun _ => 0) = .ok v g ∧ v ≤ 1 ∧ ∀ w ∈ [(1 : ℚ), 0], v ≤ w := by
  have h : ∃ Y fX i, minimize exEnv square .matrix (fun _ => 1) (-10) 1 = .ok (Y, fX, i) := by
    obtain ⟨⟨Y, fX, i⟩, h⟩ := c105_returns exEnv (by norm_num [exEnv]) square .matrix (Or.inl rfl) (fun _ => 1) (-10)
      (red := 1) one_pos (f0 := 1) (df0 := fun _ => 2) (by simp [square]) (by intro Y e h; cases h)
    exact ⟨Y, fX, i, h⟩
  obtain ⟨Y, fX, i, h⟩ := h
  have h1 : show1 (minimize exEnv square .matrix (fun _ => 1) (-10) 1) = some (0, [1, 0], 10) := by decide +kernel
  rw [h] at h1
  simp only [show1, Except.toOption, Option.map_some, Option.some.injEq, Prod.mk.injEq] at h1
  obtain ⟨hY, hfX, hi⟩ := h1
  have hY' : Y = fun _ => 0 := by funext j; rw [Fin.eq_zero j]; exact hY
  have := (c105_result exEnv (by norm_num [exEnv]) square .matrix (fun _ => 1) (-10) (red := 1) one_pos (f0 := 1)
    (df0 := fun _ => 2) (by simp [square]) h).1
  rw [hY', hfX] at this
  exact this

/-- The first pass on `x²` from 1 records the value 0: the step length is a half along the direction -2. -/
example : ∃ st', step exEnv square .matrix (-10) (⟨fun _ => 1, 1, fun _ => 2, fun _ => -2, -4, 1 / 5, 1, false, [1]⟩ : St ℚ 0) =
    .ok (st', false) ∧ st'.fX = [1, 0] ∧ st'.X 0 = 0 := by
  have h : ((step exEnv square .matrix (-10) (⟨fun _ => 1, 1, fun _ => 2, fun _ => -2, -4, 1 / 5, 1, false, [1]⟩ : St ℚ 0)).toOption.map
      fun r => (r.1.fX, r.1.X 0, r.2)) = some ([1, 0], 0, false) := by decide +kernel
  cases hs : step exEnv square .matrix (-10) (⟨fun _ => 1, 1, fun _ => 2, fun _ => -2, -4, 1 / 5, 1, false, [1]⟩ : St ℚ 0) with
  | error e => rw [hs] at h; simp [Except.toOption] at h
  | ok r =>
    obtain ⟨st', b⟩ := r
    rw [hs] at h
    simp only [Except.toOption, Option.map_some, Option.some.injEq, Prod.mk.injEq] at h
    obtain ⟨h1, h2, h3⟩ := h
    subst h3
    exact ⟨st', rfl, h1, h2⟩

/-! C106: what is recorded and what is returned. -/

/-- `-x` with its derivative. -/
def line (x : Fin 1 → ℚ) : Ev ℚ (Fin 1 → ℚ) := .ok (-x 0) fun _ => -1

/-- An objective with a deep narrow dip at one half. The values and derivatives at finitely many points are those of a
smooth function. -/
def dip (x : Fin 1 → ℚ) : Ev ℚ (Fin 1 → ℚ) :=
  if x 0 = 0 then .ok 0 fun _ => -1 else if x 0 = 1 / 2 then .ok (-10) fun _ => 5 else .ok (-1) fun _ => 0

/-- C106 is false. (1) On `-x` the line search never meets the slope condition; the point moves and only the starting value
is recorded, so the last recorded value is not that of the result. (2) On `dip` the first point tried, one half, has
value -10, and the result has value -1: a successful line search forgets the best point it met. -/
theorem c106_false :
    (∃ Y i v g, minimize exEnv line .matrix (fun _ => 0) 1 1 = .ok (Y, [0], i) ∧ line Y = .ok v g ∧ v < 0) ∧
      ∃ Y fX i v g w g', minimize exEnv dip .matrix (fun _ => 0) 1 1 = .ok (Y, fX, i) ∧ dip Y = .ok v g ∧
        dip (fun _ => 0 + 1 / (1 - -(1 * 1)) * 1) = .ok w g' ∧ w < v := by
  constructor
  · have h : show1 (minimize exEnv line .matrix (fun _ => 0) 1 1) = some (1162261467 / 2, [0], 1) := by decide +kernel
    cases hs : minimize exEnv line .matrix (fun _ => 0) 1 1 with
    | error e => rw [hs] at h; simp [show1, Except.toOption] at h
    | ok r =>
      obtain ⟨Y, fX, i⟩ := r
      rw [hs] at h
      simp only [show1, Except.toOption, Option.map_some, Option.some.injEq, Prod.mk.injEq] at h
      obtain ⟨h1, h2, h3⟩ := h
      subst h2
      exact ⟨Y, i, -Y 0, _, rfl, rfl, by rw [h1]; norm_num⟩
  · have h : (show1 (minimize exEnv dip .matrix (fun _ => 0) 1 1)).map (fun r => (r.1 ≠ 0 ∧ r.1 ≠ 1 / 2 : Bool)) = some true := by
      decide +kernel
    cases hs : minimize exEnv dip .matrix (fun _ => 0) 1 1 with
    | error e => rw [hs] at h; simp [show1, Except.toOption] at h
    | ok r =>
      obtain ⟨Y, fX, i⟩ := r
      rw [hs] at h
      simp only [show1, Except.toOption, Option.map_some, Option.some.injEq, decide_eq_true_eq] at h
      refine ⟨Y, fX, i, -1, fun _ => 0, -10, fun _ => 5, rfl, ?_, ?_, by norm_num⟩
      · simp only [dip, h.1, h.2, if_false]
      · simp only [dip]; norm_num

/-- C106, what is left. Full statement: the value at the returned point is the last recorded one and is no more than any value
met. Proved: it is no more than the last recorded one. Missing: equality and the values met on the way, false by
`c106_false`. -/
theorem c106_partial (E : Env F) (hE : 0 < E.tiny) (obj : (Fin (n + 1) → F) → Ev F (Fin (n + 1) → F)) (k : Kind)
    (X : Fin (n + 1) → F) (length : ℤ) {red : F} (hr : 0 < red) {f0 : F} {df0 : Fin (n + 1) → F}
    (h0 : obj X = .ok f0 df0) {Y : Fin (n + 1) → F} {fX : List F} {i : ℕ}
    (h : minimize E obj k X length red = .ok (Y, fX, i)) : ∃ v g w, obj Y = .ok v g ∧ fX.getLast? = some w ∧ v ≤ w := by
  obtain ⟨⟨v, g, h1, -, h2⟩, h3, -⟩ := c105_result E hE obj k X length hr h0 h
  cases fX with
  | nil => cases h3
  | cons a l => exact ⟨v, g, _, h1, List.getLast?_eq_some_getLast (List.cons_ne_nil a l), h2 _ (List.getLast_mem _)⟩

/-- On `-x` the run returns, by `c106_false`. -/
example : ∃ Y fX i v g w, minimize exEnv line .matrix (fun _ => 0) 1 1 = .ok (Y, fX, i) ∧ line Y = .ok v g ∧ fX.getLast? = some w ∧ v ≤ w := by
  obtain ⟨Y, i, v, g, h, -⟩ := c106_false.1
  obtain ⟨v, g, w, h1⟩ := c106_partial exEnv (by simp [exEnv]) line .matrix _ 1 one_pos (f0 := 0) (df0 := fun _ => -1) (by simp [line]) h
  exact ⟨Y, [0], i, v, g, w, h, h1⟩

/-! C107: the search direction. -/

/-- C107 is false for more than one parameter: the direction is not the one of Polack and Ribière. Here only the second
entry of the gradients and of the old direction is not zero; the rule would leave the first entry at zero, the code gives
it -4, so a parameter whose derivative is zero everywhere moves. -/
theorem c107_false :
    ∃ df0 df3 s s' : Fin 2 → ℚ, newDir .matrix df0 df3 s = .ok s' ∧ df0 0 = 0 ∧ df3 0 = 0 ∧ s 0 = 0 ∧ s' 0 = -4 ∧
      s' ≠ fun i => (∑ j, df3 j * df3 j - ∑ j, df0 j * df3 j) / (∑ j, df0 j * df0 j) * s i - df3 i := by
  refine ⟨![0, 1], ![0, 2], ![0, -1], ![-4, -6], ?_, by simp, by simp, by simp, by simp, ?_⟩
  · simp only [newDir, inner, Except.ok.injEq]
    funext i
    fin_cases i <;> simp only [Nat.reduceAdd, Fin.sum_univ_two] <;> norm_num
  · intro h
    have := congrFun h 0
    norm_num [Fin.sum_univ_two] at this

/-- C107, one parameter: the direction is the one of Polack and Ribière. Missing: more than one parameter, where it is
false by `c107_false`. -/
theorem c107_one_partial (k : Kind) (df0 df3 s : Fin 1 → F) :
    newDir k df0 df3 s =
      .ok fun i => (∑ j, df3 j * df3 j - ∑ j, df0 j * df3 j) / (∑ j, df0 j * df0 j) * s i - df3 i := by
  cases k <;> simp only [newDir, inner, if_true, Except.ok.injEq] <;> funext i <;> rw [Fin.eq_zero i] <;> simp

example : newDir .matrix (fun _ => 2) (fun _ => 1) (fun _ => -2 : Fin 1 → ℚ) = .ok fun _ => -1 / 2 := by
  rw [c107_one_partial]; simp only [Except.ok.injEq]; funext i; norm_num

theorem step_frame (E : Env F) (obj : (Fin (n + 1) → F) → Ev F (Fin (n + 1) → F)) (k : Kind) (length : ℤ) (st st' : St F n)
    (b : Bool) (h : step E obj k length st = .ok (st', b)) (hfX : st'.fX = st.fX) :
    (b = false → st.failed = false ∧ st'.failed = true) ∧ st'.i ≤ st.i + 20 := by
  unfold step at h
  simp only [bind, Except.bind] at h
  set L : Line F n := ⟨obj, k, st.X, st.s, st.f0, st.df0, st.d0⟩ with hL
  set M := if length > 0 then MAX else min MAX (length.natAbs - st.i) with hM
  have hM20 : M ≤ 20 := by rw [hM]; split_ifs <;> simp [MAX]
  cases hp : extrap E L (M + 1) M st.x3 ⟨st.X, st.f0, st.df0⟩ with
  | error e => simp [hp] at h
  | ok p =>
    simp only [hp] at h
    cases he : interp E L p.M (0, st.f0, st.d0) none p.x3 p.f3 p.df3 p.d3 p.best with
    | error e => simp [he] at h
    | ok e =>
      simp only [he] at h
      have hI : (if length > 0 then st.i + 1 else st.i + (M - e.M)) ≤ st.i + 20 := by split_ifs <;> omega
      generalize (if length > 0 then st.i + 1 else st.i + (M - e.M)) = I at h hI
      cases hl : e.last.filter fun l => decide (|l.2.2.2| < -SIG * st.d0 ∧ l.2.1 < st.f0 + l.1 * RHO * st.d0) with
      | none =>
        simp only [hl] at h
        split_ifs at h with c
        · simp only [Except.ok.injEq, Prod.mk.injEq] at h
          obtain ⟨rfl, rfl⟩ := h
          exact ⟨by simp, hI⟩
        · simp only [Except.ok.injEq, Prod.mk.injEq] at h
          obtain ⟨rfl, rfl⟩ := h
          push Not at c
          exact ⟨fun _ => ⟨by simpa using c.1, rfl⟩, hI⟩
      | some l =>
        obtain ⟨x3, f3, df3, d3⟩ := l
        simp only [hl] at h
        cases hn : newDir k st.df0 df3 st.s with
        | error e' => simp [hn] at h
        | ok s =>
          simp only [hn, Except.ok.injEq, Prod.mk.injEq] at h
          obtain ⟨rfl, rfl⟩ := h
          simp at hfX

theorem step_flat (E : Env F) (hE : 0 < E.tiny) (obj : (Fin (n + 1) → F) → Ev F (Fin (n + 1) → F))
    (hz : ∀ Y v g, obj Y = .ok v g → g 0 = 0) (length : ℤ) (f0 : F) (st : St F n) (h : Inv obj length f0 st) (hd : st.d0 = 0)
    (hi : st.i < length.natAbs) :
    match step E obj .array length st with
    | .error e => ∃ Y, obj Y = .raise e
    | .ok r => Inv obj length f0 r.1 ∧ r.1.fX = st.fX ∧ r.1.i ≤ st.i + 20 ∧
        (r.2 = false → r.1.d0 = 0 ∧ st.failed = false ∧ r.1.failed = true) := by
  have hs := step_spec E hE obj .array length f0 st h hi
  cases he : step E obj .array length st with
  | error e =>
    rw [he] at hs
    rcases hs with hs | ⟨_, _, _, hn⟩
    · exact hs
    · rw [hd] at hn
      exact absurd hn (lt_irrefl _)
  | ok r =>
    rw [he] at hs
    obtain ⟨st', b⟩ := r
    obtain ⟨h1, h2, h3, h4⟩ := hs
    have hfX : st'.fX = st.fX := by
      rcases h4 with h4 | ⟨t, _, _, _, _, h5, _⟩
      · exact h4.1
      · rw [hd] at h5
        exact absurd (lt_of_le_of_lt (abs_nonneg _) h5) (by simp)
    obtain ⟨g1, g2⟩ := step_frame E obj .array length st st' b he hfX
    exact ⟨h1, hfX, g2, fun hb => ⟨by
      have : st'.df0 0 = 0 := hz _ _ _ h1.val
      rw [h3 hb]
      simp only [inner, this, zero_mul], g1 hb⟩⟩

/-! A coordinate along which the direction is zero stays where it is. -/

theorem upd_fixed {b : Best F n} {X Y : Fin (n + 1) → F} {f : F} {df : Fin (n + 1) → F} {j : Fin (n + 1)} (hb : b.X j = X j) (hY : Y j = X j) :
    (b.upd Y f df).X j = X j := by
  unfold Best.upd
  split_ifs
  · exact hY
  · exact hb

theorem at_fixed {L : Line F n} {j : Fin (n + 1)} (hs : L.s j = 0) (x : F) : L.at x j = L.X j := by simp [Line.at, hs]

theorem extrap_fixed (E : Env F) (L : Line F n) {j : Fin (n + 1)} (hs : L.s j = 0) :
    ∀ (fuel M : ℕ) (x3 : F) (b : Best F n) (p : Probe F n), b.X j = L.X j → extrap E L fuel M x3 b = .ok p → p.best.X j = L.X j := by
  intro fuel
  induction fuel with
  | zero => intro M x3 b p _ h; cases h
  | succ fuel ih =>
    intro M x3 b p hb h
    unfold extrap at h
    simp only at h
    split_ifs at h with c
    · cases h
      exact upd_fixed hb (at_fixed hs _)
    · exact ih _ _ _ _ (upd_fixed hb (at_fixed hs _)) h

theorem interp_fixed (E : Env F) (L : Line F n) {j : Fin (n + 1)} (hs : L.s j = 0) :
    ∀ (M : ℕ) (p2 : F × F × F) (p4 : Option (F × F × F)) (x3 f3 : F) (df3 : Fin (n + 1) → F) (d3 : F) (b : Best F n) (e : LineEnd F n),
      b.X j = L.X j → interp E L M p2 p4 x3 f3 df3 d3 b = .ok e → e.best.X j = L.X j := by
  intro M
  induction M with
  | zero => intro p2 p4 x3 f3 df3 d3 b e hb h; unfold interp at h; cases h; exact hb
  | succ M ih =>
    intro p2 p4 x3 f3 df3 d3 b e hb h
    unfold interp at h
    by_cases c : L.more x3 f3 d3
    · rw [if_pos c] at h
      simp only at h
      split at h
      · cases h
      · split at h
        · cases h
        · cases h; exact hb
        · exact ih _ _ _ _ _ _ _ _ (upd_fixed hb (at_fixed hs _)) h
    · rw [if_neg c] at h
      cases h
      exact hb

theorem step_fixed (E : Env F) (obj : (Fin (n + 1) → F) → Ev F (Fin (n + 1) → F)) (k : Kind) (length : ℤ) (st st' : St F n)
    (b : Bool) (h : step E obj k length st = .ok (st', b)) (hfX : st'.fX = st.fX) {j : Fin (n + 1)} (hs : st.s j = 0) :
    st'.X j = st.X j ∧ (b = false → ∀ i, st'.s i = -st'.df0 i) := by
  unfold step at h
  simp only [bind, Except.bind] at h
  set L : Line F n := ⟨obj, k, st.X, st.s, st.f0, st.df0, st.d0⟩ with hL
  set M := if length > 0 then MAX else min MAX (length.natAbs - st.i) with hM
  cases hp : extrap E L (M + 1) M st.x3 ⟨st.X, st.f0, st.df0⟩ with
  | error e => simp [hp] at h
  | ok p =>
    simp only [hp] at h
    have hb := extrap_fixed E L (j := j) hs _ _ _ _ _ rfl hp
    cases he : interp E L p.M (0, st.f0, st.d0) none p.x3 p.f3 p.df3 p.d3 p.best with
    | error e => simp [he] at h
    | ok e =>
      simp only [he] at h
      have hb' := interp_fixed E L (j := j) hs _ _ _ _ _ _ _ _ _ hb he
      generalize (if length > 0 then st.i + 1 else st.i + (M - e.M)) = I at h
      cases hl : e.last.filter fun l => decide (|l.2.2.2| < -SIG * st.d0 ∧ l.2.1 < st.f0 + l.1 * RHO * st.d0) with
      | none =>
        simp only [hl] at h
        split_ifs at h with c
        · simp only [Except.ok.injEq, Prod.mk.injEq] at h
          obtain ⟨rfl, rfl⟩ := h
          exact ⟨hb', by simp⟩
        · simp only [Except.ok.injEq, Prod.mk.injEq] at h
          obtain ⟨rfl, rfl⟩ := h
          exact ⟨hb', fun _ _ => rfl⟩
      | some l =>
        obtain ⟨x3, f3, df3, d3⟩ := l
        simp only [hl] at h
        cases hn : newDir k st.df0 df3 st.s with
        | error e' => simp [hn] at h
        | ok s =>
          simp only [hn, Except.ok.injEq, Prod.mk.injEq] at h
          obtain ⟨rfl, rfl⟩ := h
          simp at hfX

theorem loop_flat (E : Env F) (hE : 0 < E.tiny) (obj : (Fin (n + 1) → F) → Ev F (Fin (n + 1) → F))
    (hz : ∀ Y v g, obj Y = .ok v g → g 0 = 0) (length : ℤ) (f0 : F) (fuel : ℕ) (st : St F n) (h : Inv obj length f0 st)
    (hd : st.d0 = 0) (hf : length.natAbs ≤ st.i + fuel) :
    match loop E obj .array length fuel st with
    | .error e => ∃ Y, obj Y = .raise e
    | .ok r => r.fX = st.fX ∧ (r.i ≤ st.i + if st.failed then 20 else 40) ∧
        ∀ j, (∀ Y v g, obj Y = .ok v g → g j = 0) → st.s j = 0 → r.X j = st.X j := by
  induction fuel generalizing st with
  | zero =>
    unfold loop
    rw [if_neg (by omega)]
    exact ⟨rfl, by omega, fun _ _ _ => rfl⟩
  | succ fuel ih =>
    unfold loop
    by_cases c : st.i < length.natAbs
    · rw [if_pos c]
      have hs := step_flat E hE obj hz length f0 st h hd c
      have hp := step_spec E hE obj .array length f0 st h c
      cases he : step E obj .array length st with
      | error e => rw [he] at hs; exact hs
      | ok r =>
        obtain ⟨st', b⟩ := r
        rw [he] at hs hp
        obtain ⟨h1, h2, h3, h4⟩ := hs
        cases b with
        | true =>
          exact ⟨h2, by simp only at h3; split_ifs <;> omega, fun j _ hs => (step_fixed E obj .array length st st' true he h2 hs).1⟩
        | false =>
          obtain ⟨g1, g2, g3⟩ := h4 rfl
          have hlt : st.i < st'.i := hp.2.1
          have := ih st' h1 g1 (by omega)
          simp only
          revert this
          cases loop E obj .array length fuel st' with
          | error e => exact id
          | ok r =>
            rintro ⟨a, b, d⟩
            refine ⟨a.trans h2, ?_, fun j hj hs => ?_⟩
            · simp only at g3 h3
              rw [g3, if_pos rfl] at b
              rw [g2]
              simp only [Bool.false_eq_true, if_false]
              omega
            · obtain ⟨k1, k2⟩ := step_fixed E obj .array length st st' false he h2 hs
              rw [d j hj (by rw [k2 rfl j, hj _ _ _ h1.val, neg_zero]), k1]
    · rw [if_neg c]
      exact ⟨rfl, by omega, fun _ _ _ => rfl⟩

/-- C107, the objective of the scores. `gpr_multi_new` gives its gradient as a plain array whose first entry is always
zero (score_utils.py L435, L437). Then every slope is read as zero, no line search succeeds, and `minimize` gives up after
two: it returns, only the starting value is recorded, at most 41 evaluations are made whatever the limit, and a parameter
whose derivative is always given as zero keeps its starting value. -/
theorem c107_flat (E : Env F) (hE : 0 < E.tiny) (obj : (Fin (n + 1) → F) → Ev F (Fin (n + 1) → F))
    (hz : ∀ Y v g, obj Y = .ok v g → g 0 = 0) (X : Fin (n + 1) → F) (length : ℤ) {red : F} (hr : 0 < red) {f0 : F}
    {df0 : Fin (n + 1) → F} (h0 : obj X = .ok f0 df0) (hobj : ∀ Y e, obj Y ≠ .raise e) :
    ∃ Y i, minimize E obj .array X length red = .ok (Y, [f0], i) ∧ i ≤ 41 ∧
      ∀ j, (∀ Y v g, obj Y = .ok v g → g j = 0) → Y j = X j := by
  have h00 : df0 0 = 0 := hz _ _ _ h0
  have hd : -inner .array (fun i => -df0 i) (fun i => -df0 i) = 0 := by simp [inner, h00]
  have hi : Inv obj length f0 (⟨X, f0, df0, fun i => -df0 i, -inner .array (fun i => -df0 i) (fun i => -df0 i),
      red / (1 - -inner .array (fun i => -df0 i) (fun i => -df0 i)), if length < 0 then 1 else 0, false, [f0]⟩ : St F n) :=
    ⟨h0, hd.le, div_pos hr (by rw [hd]; norm_num), by simp, by simp, rfl, by simp only; split_ifs <;> omega, by simp⟩
  have hs := loop_flat E hE obj hz length f0 length.natAbs _ hi hd (by omega)
  unfold minimize
  simp only [h0]
  revert hs
  cases loop E obj .array length length.natAbs (⟨X, f0, df0, fun i => -df0 i, -inner .array (fun i => -df0 i) (fun i => -df0 i),
      red / (1 - -inner .array (fun i => -df0 i) (fun i => -df0 i)), if length < 0 then 1 else 0, false, [f0]⟩ : St F n) with
  | error e => rintro ⟨Y, hY⟩; exact absurd hY (hobj Y e)
  | ok st =>
    rintro ⟨h1, h2, h3⟩
    simp only at h1 h2 h3
    refine ⟨st.X, st.i, by simp only [h1], ?_, fun j hj => h3 j hj (by rw [hj _ _ _ h0, neg_zero])⟩
    simp only [Bool.false_eq_true, if_false] at h2
    split_ifs at h2 <;> omega

/-- The square of the second of two parameters, with the gradient read as a plain array: from 1 the whole budget would find
the minimum at once by the right slope, and the code records nothing. -/
example : ∃ Y i, minimize exEnv (fun x : Fin 2 → ℚ => .ok (x 1 * x 1) ![0, 2 * x 1]) .array ![0, 1] (-300) 1 = .ok (Y, [1], i) ∧ i ≤ 41 ∧
    ∀ j, (∀ (Y : Fin 2 → ℚ) v g, Ev.ok (Y 1 * Y 1) ![0, 2 * Y 1] = .ok v g → g j = 0) → Y j = ![0, 1] j :=
  c107_flat exEnv (by norm_num [exEnv]) _ (by intro Y v g h; cases h; rfl) ![0, 1] (-300) one_pos (df0 := ![0, 2]) (by simp)
    (by intro Y e h; cases h)

end Cdmir.Minimize
