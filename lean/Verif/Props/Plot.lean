import Verif.Model.Plot
import Verif.Props.GraphCore
import Mathlib.Data.String.Basic
import Mathlib.Analysis.SpecialFunctions.Trigonometric.Bounds
import Mathlib.Analysis.Real.Pi.Bounds

/-! C142 (edges and nodes that are drawn) and C143 (the circular layout). -/

namespace Cdmir.Plot

/-- The distance of two points. -/
noncomputable def far (p q : Pt) : ℝ := Real.sqrt ((q.1 - p.1) ^ 2 + (q.2 - p.2) ^ 2)

/-- The point reached from `p` by going `t` in the direction of `q`. -/
noncomputable def along (p q : Pt) (t : ℝ) : Pt := (p.1 + t * ((q.1 - p.1) / far p q), p.2 + t * ((q.2 - p.2) / far p q))

theorem far_comm (p q : Pt) : far p q = far q p := by
  unfold far
  congr 1
  ring

/-- `along p q t` is at distance `|t|` from `p` and `|far p q - t|` from `q`: it lies on the line through both. -/
theorem along_far {p q : Pt} (h : far p q ≠ 0) (t : ℝ) : far p (along p q t) = |t| ∧ far (along p q t) q = |far p q - t| := by
  have hsq : (q.1 - p.1) ^ 2 + (q.2 - p.2) ^ 2 = far p q ^ 2 := by
    unfold far
    rw [Real.sq_sqrt (by positivity)]
  have e : ((q.1 - p.1) / far p q) ^ 2 + ((q.2 - p.2) / far p q) ^ 2 = 1 := by
    rw [div_pow, div_pow, ← add_div, hsq, div_self (pow_ne_zero 2 h)]
  have e1 : q.1 - p.1 = far p q * ((q.1 - p.1) / far p q) := by field_simp
  have e2 : q.2 - p.2 = far p q * ((q.2 - p.2) / far p q) := by field_simp
  constructor
  · rw [← Real.sqrt_sq_eq_abs]
    conv_lhs => unfold far
    congr 1
    unfold along
    simp only
    linear_combination t ^ 2 * e
  · rw [← Real.sqrt_sq_eq_abs]
    conv_lhs => unfold far
    congr 1
    unfold along
    simp only
    have a1 : q.1 - (p.1 + t * ((q.1 - p.1) / far p q)) = (far p q - t) * ((q.1 - p.1) / far p q) := by linear_combination e1
    have a2 : q.2 - (p.2 + t * ((q.2 - p.2) / far p q)) = (far p q - t) * ((q.2 - p.2) / far p q) := by linear_combination e2
    rw [a1, a2]
    linear_combination (far p q - t) ^ 2 * e

/-- How much room a mark takes. -/
def room (m : Mark) (c : ℝ) : ℝ := if m = .circle then 2 * c else 0

/-- C142: an edge between different places is one arrow on the line through both, which starts at the rim of the circle of `u` (behind the
mark, if that is a circle) and ends at the rim of the circle of `v`, with a head at an end exactly if the mark there is an arrow; and, for
each end with the mark `Circle`, a small circle that touches both the node and the arrow. -/
theorem c142_edge {p q : Pt} (h : far p q ≠ 0) (mu mv : Mark) {r c : ℝ} (hc : 0 < c) :
    pltEdge p q mu mv r c = .ok ((if mu = .circle then [.circle (along p q (r + c)) c false] else []) ++
      (if mv = .circle then [.circle (along q p (r + c)) c false] else []) ++
      [.arrow (along p q (r + room mu c)) (along q p (r + room mv c)) (decide (mu = .arrow)) (decide (mv = .arrow))]) := by
  have h' : far q p ≠ 0 := by rw [far_comm]; exact h
  unfold pltEdge
  rw [if_pos hc]
  have hd : Real.sqrt ((q.1 - p.1) ^ 2 + (q.2 - p.2) ^ 2) = far p q := rfl
  simp only [hd, if_neg h]
  have hqp : far q p = far p q := far_comm q p
  cases mu <;> cases mv <;> simp [along, room, hqp, pure, Except.pure] <;> (try refine ⟨⟨?_, ?_⟩, ⟨?_, ?_⟩, ⟨?_, ?_⟩, ?_, ?_⟩) <;> (try refine ⟨⟨?_, ?_⟩, ⟨?_, ?_⟩, ?_, ?_⟩) <;>
    (try refine ⟨⟨?_, ?_⟩, ?_, ?_⟩) <;> (try field_simp) <;> (try ring)

/-- C142: the arrow points from `u` to `v` exactly if the two nodes are farther apart than their circles and marks need; otherwise
it points backwards. -/
theorem c142_direction {p q : Pt} (h : far p q ≠ 0) (mu mv : Mark) (r c : ℝ) :
    ∃ t : ℝ, ((along q p (r + room mv c)).1 - (along p q (r + room mu c)).1 = t * (q.1 - p.1) ∧
      (along q p (r + room mv c)).2 - (along p q (r + room mu c)).2 = t * (q.2 - p.2)) ∧
      (0 < t ↔ 2 * r + room mu c + room mv c < far p q) := by
  have hp : 0 < far p q := lt_of_le_of_ne (Real.sqrt_nonneg _) (Ne.symm h)
  refine ⟨1 - (2 * r + room mu c + room mv c) / far p q, ⟨?_, ?_⟩, ?_⟩
  · unfold along
    rw [far_comm q p]
    field_simp
    ring
  · unfold along
    rw [far_comm q p]
    field_simp
    ring
  · rw [sub_pos, div_lt_one hp]

/-- C142: the edge seen from the other end is the same picture. -/
theorem c142_swap {p q : Pt} (h : far p q ≠ 0) (mu mv : Mark) {r c : ℝ} (hc : 0 < c) {s s' : List Shape}
    (e : pltEdge p q mu mv r c = .ok s) (e' : pltEdge q p mv mu r c = .ok s') :
    (∀ x ∈ s, (∃ a b f g, x = .arrow a b f g ∧ .arrow b a g f ∈ s') ∨ ((∃ a f, x = .circle a c f) ∧ x ∈ s')) := by
  have h' : far q p ≠ 0 := by rw [far_comm]; exact h
  rw [c142_edge h mu mv hc] at e
  rw [c142_edge h' mv mu hc] at e'
  cases e
  cases e'
  intro x hx
  simp only [List.mem_append, List.mem_singleton] at hx ⊢
  rcases hx with (hx | hx) | hx
  · right
    split at hx
    · rename_i hm
      simp only [List.mem_singleton] at hx
      subst hx
      exact ⟨⟨_, _, rfl⟩, .inl (.inr (by simp [hm]))⟩
    · simp at hx
  · right
    split at hx
    · rename_i hm
      simp only [List.mem_singleton] at hx
      subst hx
      exact ⟨⟨_, _, rfl⟩, .inl (.inl (by simp [hm]))⟩
    · simp at hx
  · left
    exact ⟨_, _, _, _, hx, .inr rfl⟩

variable {α : Type} [DecidableEq α]

/-- The list of the names in the order in which they are placed. -/
def placed (nm : Names α) (sortNode : Bool) (g : Graph α) : List String :=
  if sortNode then (g.nodes.map nm.text).mergeSort (fun a b => decide (a ≤ b)) else g.nodes.map nm.text

omit [DecidableEq α] in
theorem placed_perm (nm : Names α) (sortNode : Bool) (g : Graph α) : (placed nm sortNode g).Perm (g.nodes.map nm.text) := by
  unfold placed
  split
  · exact List.mergeSort_perm _ _
  · exact List.Perm.refl _

/-- The place with number `i` of `n`. -/
noncomputable def spot (scale : ℝ) (n i : Nat) : Pt := (scale * Real.cos (angle n i), scale * Real.sin (angle n i))

theorem dget_fold (f : Nat → Pt) (l : List String) (k : Nat) (d : Dict String Pt) (x : String) :
    dget ((l.zipIdx k).foldl (fun d e => dset d e.1 (f e.2)) d) x =
      if x ∈ l then some (f (k + l.length - 1 - (l.reverse.idxOf x))) else dget d x := by
  induction l generalizing k d with
  | nil => simp
  | cons y l ih =>
    rw [List.zipIdx_cons, List.foldl_cons, ih]
    by_cases hx : x ∈ l
    · rw [if_pos hx, if_pos (List.mem_cons_of_mem _ hx), List.reverse_cons, List.idxOf_append_of_mem (List.mem_reverse.2 hx), List.length_cons]
      congr 2
      omega
    · rw [if_neg hx, dget_dset]
      by_cases hy : y = x
      · subst hy
        rw [if_pos rfl, if_pos List.mem_cons_self, List.reverse_cons, List.idxOf_append_of_notMem (by simpa using hx)]
        simp
      · rw [if_neg hy, if_neg (by simp; exact ⟨fun h => hy h.symm, hx⟩)]

omit [DecidableEq α] in
/-- C143: every node has a place. Without two nodes of the same text, the node that comes at number `i`, in the order of the graph or of
the sorted texts, is at place `i`. -/
theorem c143_layout (nm : Names α) (scale : ℝ) (sortNode : Bool) (g : Graph α) : ∃ L : List String,
    L.Perm (g.nodes.map nm.text) ∧ (sortNode = false → L = g.nodes.map nm.text) ∧ (sortNode = true → L.Pairwise (· ≤ ·)) ∧
      (∀ u ∈ g.nodes, ∃ i < g.nodes.length, L[i]? = some (nm.text u) ∧ dget (circularLayout nm scale sortNode g) (nm.text u) = some (spot scale g.nodes.length i)) ∧
      ((g.nodes.map nm.text).Nodup → ∀ i s, L[i]? = some s → dget (circularLayout nm scale sortNode g) s = some (spot scale g.nodes.length i)) := by
  have hlen : (placed nm sortNode g).length = g.nodes.length := by rw [(placed_perm nm sortNode g).length_eq, List.length_map]
  have key : ∀ s, dget (circularLayout nm scale sortNode g) s =
      if s ∈ placed nm sortNode g then some (spot scale g.nodes.length (0 + (placed nm sortNode g).length - 1 - ((placed nm sortNode g).reverse.idxOf s))) else none := by
    intro s
    have := dget_fold (spot scale (placed nm sortNode g).length) (placed nm sortNode g) 0 [] s
    rw [hlen] at this
    rw [dget_nil] at this
    rw [hlen, ← this]
    unfold circularLayout placed spot
    rw [← hlen]
    rfl
  have hrev : ∀ s ∈ placed nm sortNode g, (placed nm sortNode g).length - 1 - ((placed nm sortNode g).reverse.idxOf s) < g.nodes.length ∧
      (placed nm sortNode g)[(placed nm sortNode g).length - 1 - ((placed nm sortNode g).reverse.idxOf s)]? = some s := by
    intro s hs
    have h1 : (placed nm sortNode g).reverse.idxOf s < (placed nm sortNode g).reverse.length := List.idxOf_lt_length_of_mem (List.mem_reverse.2 hs)
    rw [List.length_reverse] at h1
    refine ⟨by omega, ?_⟩
    rw [← List.getElem?_reverse h1, List.getElem?_eq_getElem (by rw [List.length_reverse]; exact h1), List.getElem_idxOf]
  refine ⟨placed nm sortNode g, placed_perm nm sortNode g, ?_, ?_, ?_, ?_⟩
  · rintro rfl; rfl
  · rintro rfl
    unfold placed
    rw [if_pos rfl]
    have := List.pairwise_mergeSort (le := fun a b : String => decide (a ≤ b)) (fun a b c h1 h2 => by
      simp only [decide_eq_true_eq] at *; exact le_trans h1 h2) (fun a b => by
      simp only [Bool.or_eq_true, decide_eq_true_eq]; exact le_total a b) (g.nodes.map nm.text)
    exact this.imp fun h => by simpa using h
  · intro u hu
    have hm : nm.text u ∈ placed nm sortNode g := (placed_perm nm sortNode g).mem_iff.2 (List.mem_map_of_mem hu)
    obtain ⟨a, b⟩ := hrev _ hm
    refine ⟨_, a, b, ?_⟩
    rw [key, if_pos hm, Nat.zero_add]
  · intro hn i s hi
    have hm : s ∈ placed nm sortNode g := List.mem_of_getElem? hi
    obtain ⟨a, b⟩ := hrev _ hm
    rw [key, if_pos hm, Nat.zero_add]
    have hn' : (placed nm sortNode g).Nodup := (placed_perm nm sortNode g).nodup_iff.2 hn
    have hlt : i < (placed nm sortNode g).length := (List.getElem?_eq_some_iff.1 hi).1
    rw [(List.getElem?_inj (lt_of_lt_of_eq a hlen.symm) hn').1 (b.trans hi.symm)]

/-- C143: the first place is at the top, the places are on the circle, and the distance of two of them is the chord. -/
theorem c143_circle {scale : ℝ} (hs : 0 ≤ scale) {n : Nat} (hn : 0 < n) (i j : Nat) :
    spot scale n 0 = (0, scale) ∧ far (0, 0) (spot scale n i) = scale ∧
      far (spot scale n i) (spot scale n j) = 2 * scale * |Real.sin (Real.pi * ((i : ℝ) - j) / n)| := by
  have hn' : (n : ℝ) ≠ 0 := by exact_mod_cast hn.ne'
  refine ⟨?_, ?_, ?_⟩
  · unfold spot angle
    simp
  · unfold far spot
    simp only [sub_zero]
    rw [show (scale * Real.cos (angle n i)) ^ 2 + (scale * Real.sin (angle n i)) ^ 2 = scale ^ 2 by
      linear_combination scale ^ 2 * Real.cos_sq_add_sin_sq (angle n i), Real.sqrt_sq hs]
  · have e : Real.pi * ((i : ℝ) - j) / n = (angle n j - angle n i) / 2 := by
      unfold angle
      field_simp
      ring
    rw [e]
    unfold far spot
    simp only
    set a := angle n i
    set b := angle n j
    have h1 := Real.cos_sub b a
    have h2 := Real.cos_sq' ((b - a) / 2)
    have h3 := Real.cos_two_mul ((b - a) / 2)
    rw [show 2 * ((b - a) / 2) = b - a by ring] at h3
    have h4 := Real.cos_sq_add_sin_sq a
    have h5 := Real.cos_sq_add_sin_sq b
    rw [show (scale * Real.cos b - scale * Real.cos a) ^ 2 + (scale * Real.sin b - scale * Real.sin a) ^ 2 =
      (2 * scale * |Real.sin ((b - a) / 2)|) ^ 2 by
        rw [mul_pow, sq_abs]
        linear_combination scale ^ 2 * h4 + scale ^ 2 * h5 + 2 * scale ^ 2 * h1 - 2 * scale ^ 2 * h3 - 4 * scale ^ 2 * h2]
    exact Real.sqrt_sq (by positivity)

theorem sin_between {x a : ℝ} (ha : 0 ≤ a) (h1 : a ≤ x) (h2 : x ≤ Real.pi - a) : Real.sin a ≤ Real.sin x := by
  rcases le_total x (Real.pi / 2) with h | h
  · exact Real.sin_le_sin_of_le_of_le_pi_div_two (by linarith [Real.pi_pos]) h h1
  · rw [← Real.sin_pi_sub x]
    exact Real.sin_le_sin_of_le_of_le_pi_div_two (by linarith [Real.pi_pos]) (by linarith) (by linarith)

/-- C143: with the default scale and radius, the circles of the nodes do not touch exactly up to 35 nodes. -/
theorem c143_overlap (n : Nat) : (∀ i j, i < j → j < n → 2 * (4 / 100 : ℝ) < far (spot (45 / 100) n i) (spot (45 / 100) n j)) ↔ n ≤ 35 := by
  have hpi := Real.pi_gt_d4
  have hpi' := Real.pi_lt_d4
  constructor
  · intro h
    by_contra hc
    push Not at hc
    have h01 := h 0 1 (by norm_num) (by omega)
    rw [(c143_circle (by norm_num) (by omega : 0 < n) 0 1).2.2] at h01
    have hn : (36 : ℝ) ≤ n := by exact_mod_cast hc
    have ha : Real.pi * (((0 : ℕ) : ℝ) - ((1 : ℕ) : ℝ)) / n = -(Real.pi / n) := by push_cast; ring
    rw [ha, Real.sin_neg, abs_neg] at h01
    have hp : 0 < Real.pi / n := by positivity
    have hle : Real.pi / n ≤ Real.pi / 36 := by gcongr
    rw [abs_of_nonneg (Real.sin_nonneg_of_nonneg_of_le_pi hp.le (by linarith))] at h01
    have := Real.sin_lt hp
    linarith
  · intro hn i j hij hj
    have hn0 : (0 : ℝ) < n := by exact_mod_cast (by omega : 0 < n)
    have hn' : (n : ℝ) ≤ 35 := by exact_mod_cast hn
    have hn2 : (2 : ℝ) ≤ n := by exact_mod_cast (by omega : 2 ≤ n)
    rw [(c143_circle (by norm_num) (by omega : 0 < n) i j).2.2]
    have hij1 : (1 : ℝ) ≤ (j : ℝ) - i := by
      have : (i : ℝ) + 1 ≤ j := by exact_mod_cast hij
      linarith
    have hij2 : (j : ℝ) - i ≤ n - 1 := by
      have : (j : ℝ) + 1 ≤ n := by exact_mod_cast hj
      have : (0 : ℝ) ≤ i := Nat.cast_nonneg _
      linarith
    have ea : Real.pi * ((i : ℝ) - j) / n = -(Real.pi * ((j : ℝ) - i) / n) := by ring
    rw [ea, Real.sin_neg, abs_neg]
    have h1 : Real.sin (Real.pi / n) ≤ Real.sin (Real.pi * ((j : ℝ) - i) / n) := by
      apply sin_between (by positivity)
      · gcongr
        nlinarith
      · rw [le_sub_iff_add_le, ← add_div, div_le_iff₀ hn0]
        nlinarith
    have h2 : Real.sin (Real.pi / 35) ≤ Real.sin (Real.pi / n) := by
      apply Real.sin_le_sin_of_le_of_le_pi_div_two (by linarith)
      · gcongr
      · gcongr
    have h3 : (89 / 1000 : ℝ) < Real.sin (Real.pi / 35) := by
      have := Real.sin_gt_sub_cube (x := Real.pi / 35) (by positivity)
      have h4 : (Real.pi / 35) ^ 3 ≤ (9 / 100) ^ 3 := pow_le_pow_left₀ (by positivity) (by linarith) 3
      linarith
    have := le_abs_self (Real.sin (Real.pi * ((j : ℝ) - i) / n))
    linarith

/-- C143: with the default scale and radius the circles of the nodes lie in the figure. -/
theorem c143_inside (n i : Nat) (x y : ℝ) (h : far (toFigure (spot (45 / 100) n i)) (x, y) ≤ 4 / 100) :
    0 < x ∧ x < 1 ∧ 0 < y ∧ y < 1 := by
  unfold far toFigure spot at h
  rw [Real.sqrt_le_iff] at h
  obtain ⟨-, h⟩ := h
  simp only at h
  have c1 := Real.neg_one_le_cos (angle n i)
  have c2 := Real.cos_le_one (angle n i)
  have s1 := Real.neg_one_le_sin (angle n i)
  have s2 := Real.sin_le_one (angle n i)
  have hx : |x - (45 / 100 * Real.cos (angle n i) + 1 / 2)| ≤ 4 / 100 := by
    apply abs_le_of_sq_le_sq _ (by norm_num)
    nlinarith [sq_nonneg (y - (45 / 100 * Real.sin (angle n i) + 1 / 2))]
  have hy : |y - (45 / 100 * Real.sin (angle n i) + 1 / 2)| ≤ 4 / 100 := by
    apply abs_le_of_sq_le_sq _ (by norm_num)
    nlinarith [sq_nonneg (x - (45 / 100 * Real.cos (angle n i) + 1 / 2))]
  rw [abs_le] at hx hy
  refine ⟨?_, ?_, ?_, ?_⟩ <;> linarith

/-- What Python guarantees about `str` and strings: a string is its own text, and equal strings are the same node. -/
structure Names.Good (nm : Names α) : Prop where
  text : ∀ u s, nm.asStr u = some s → nm.text u = s

omit [DecidableEq α] in
theorem drawNodes_ok (nm : Names α) (pos : Dict String Pt) (latent : List String) (r : ℝ) (l : List α)
    (h : ∀ u ∈ l, ∃ p, dget pos (nm.text u) = some p) : ∃ s, drawNodes nm pos latent r l = .ok s ∧
      (∀ u ∈ l, ∀ p, dget pos (nm.text u) = some p → .circle (toFigure p) r (decide (nm.text u ∉ latent)) ∈ s ∧ .text (toFigure p) (nm.text u) ∈ s) ∧
      s.length = 2 * l.length ∧ (∀ a b f g, .arrow a b f g ∉ s) := by
  induction l with
  | nil => exact ⟨[], rfl, by simp, rfl, by simp⟩
  | cons u l ih =>
    obtain ⟨s, hs, hm, hl, ha⟩ := ih fun v hv => h v (List.mem_cons_of_mem _ hv)
    obtain ⟨p, hp⟩ := h u List.mem_cons_self
    refine ⟨pltNode (toFigure p) r (nm.text u) (decide (nm.text u ∉ latent)) ++ s, ?_, ?_, ?_, ?_⟩
    · unfold drawNodes dgetE
      rw [hp, hs]
      rfl
    · intro v hv q hq
      rcases List.mem_cons.1 hv with rfl | hv
      · rw [hp] at hq
        cases hq
        simp [pltNode]
      · obtain ⟨a, b⟩ := hm v hv q hq
        exact ⟨List.mem_append_right _ a, List.mem_append_right _ b⟩
    · simp [pltNode, hl]
      omega
    · intro a b f g hmem
      rcases List.mem_append.1 hmem with h1 | h1
      · simp [pltNode] at h1
      · exact ha a b f g h1

omit [DecidableEq α] in
theorem drawEdges_iff (nm : Names α) (pos : Dict String Pt) {r c : ℝ} (l : List (Edge α)) :
    (∃ s, drawEdges nm pos r c l = .ok s) ↔ ∀ e ∈ l, 0 < c ∧ (∃ p, place nm pos e.u = .ok p) ∧ ∃ p, place nm pos e.v = .ok p := by
  induction l with
  | nil => exact ⟨fun _ => by simp, fun _ => ⟨[], rfl⟩⟩
  | cons e l ih =>
    constructor
    · rintro ⟨s, hs⟩
      unfold drawEdges at hs
      cases hu : place nm pos e.u with
      | error x => rw [hu] at hs; cases hs
      | ok pu =>
        cases hv : place nm pos e.v with
        | error x => rw [hu, hv] at hs; cases hs
        | ok pv =>
          rw [hu, hv] at hs
          by_cases hc : 0 < c
          · cases hr : drawEdges nm pos r c l with
            | error x =>
              rw [hr] at hs
              cases hp : pltEdge (toFigure pu) (toFigure pv) e.mu e.mv r c with
              | error y => simp [hp, bind, Except.bind] at hs
              | ok y => simp [hp, bind, Except.bind] at hs
            | ok t =>
              intro f hf
              rcases List.mem_cons.1 hf with rfl | hf
              · exact ⟨hc, ⟨pu, hu⟩, pv, hv⟩
              · exact ih.1 ⟨t, hr⟩ f hf
          · exfalso
            have : pltEdge (toFigure pu) (toFigure pv) e.mu e.mv r c = .error .assertion := by
              unfold pltEdge
              rw [if_neg hc]
              rfl
            simp [this, bind, Except.bind] at hs
    · intro h
      obtain ⟨hc, ⟨pu, hu⟩, pv, hv⟩ := h e List.mem_cons_self
      obtain ⟨t, ht⟩ := ih.2 fun f hf => h f (List.mem_cons_of_mem _ hf)
      obtain ⟨s, hs⟩ : ∃ s, pltEdge (toFigure pu) (toFigure pv) e.mu e.mv r c = .ok s := by
        by_cases h0 : far (toFigure pu) (toFigure pv) = 0
        · refine ⟨[.broken], ?_⟩
          unfold pltEdge
          rw [if_pos hc]
          unfold far at h0
          simp only [h0]
          rfl
        · exact ⟨_, c142_edge h0 _ _ hc⟩
      refine ⟨s ++ t, ?_⟩
      unfold drawEdges
      rw [hu, hv]
      simp only [bind, Except.bind, hs, ht]
      rfl

omit [DecidableEq α] in
theorem drawEdges_mem (nm : Names α) (pos : Dict String Pt) {r c : ℝ} (l : List (Edge α)) {s : List Shape} (h : drawEdges nm pos r c l = .ok s)
    {e : Edge α} (he : e ∈ l) : ∃ pu pv t, place nm pos e.u = .ok pu ∧ place nm pos e.v = .ok pv ∧
      pltEdge (toFigure pu) (toFigure pv) e.mu e.mv r c = .ok t ∧ t.Sublist s := by
  induction l generalizing s with
  | nil => simp at he
  | cons f l ih =>
    obtain ⟨hc, ⟨pu, hu⟩, pv, hv⟩ := (drawEdges_iff nm pos (f :: l)).1 ⟨s, h⟩ f List.mem_cons_self
    obtain ⟨t, ht⟩ := (drawEdges_iff nm pos l).2 fun g hg => (drawEdges_iff nm pos (f :: l)).1 ⟨s, h⟩ g (List.mem_cons_of_mem _ hg)
    unfold drawEdges at h
    rw [hu, hv, ht] at h
    cases hp : pltEdge (toFigure pu) (toFigure pv) f.mu f.mv r c with
    | error x => simp [hp, bind, Except.bind] at h
    | ok y =>
      simp only [hp, bind, Except.bind] at h
      cases h
      rcases List.mem_cons.1 he with rfl | he
      · exact ⟨pu, pv, y, hu, hv, hp, List.sublist_append_left _ _⟩
      · obtain ⟨pu', pv', t', a, b, c', d⟩ := ih ht he
        exact ⟨pu', pv', t', a, b, c', d.trans (List.sublist_append_right _ _)⟩

/-- C142: with the circular layout and a positive radius for the marks, a graph is drawn exactly if both ends of each of its edges are strings;
a graph without edges is always drawn. -/
theorem c142_returns {k : Kind} {g : Graph α} (hg : Reachable k g) (nm : Names α) (hnm : nm.Good) (scale : ℝ) (sortNode : Bool)
    (latent : List String) (r ratio : ℝ) (hr : 0 < r * ratio) :
    (∃ s, plotGraph nm (circularLayout nm scale sortNode) latent r ratio g = .ok s) ↔
      ∀ u ∈ g.nodes, ∀ v ∈ g.nodes, u ≠ v → g.isConnected u v = .ok true → (nm.asStr u).isSome := by
  obtain ⟨es, hes, hmem, -, -, hconn, -, -⟩ := c04_edges hg
  obtain ⟨L, -, -, -, hL, -⟩ := c143_layout nm scale sortNode g
  obtain ⟨ns, hns, -⟩ := drawNodes_ok nm (circularLayout nm scale sortNode g) latent r g.nodes fun u hu => by
    obtain ⟨i, -, -, h⟩ := hL u hu
    exact ⟨_, h⟩
  have hplace : ∀ u ∈ g.nodes, (∃ p, place nm (circularLayout nm scale sortNode g) u = .ok p) ↔ (nm.asStr u).isSome := by
    intro u hu
    unfold place
    cases hs : nm.asStr u with
    | none => simp [throw, throwThe, MonadExceptOf.throw]
    | some s =>
      obtain ⟨i, -, -, h⟩ := hL u hu
      rw [hnm.text u s hs] at h
      simp [dgetE, h]
  have e : (∃ s, plotGraph nm (circularLayout nm scale sortNode) latent r ratio g = .ok s) ↔
      ∃ s, drawEdges nm (circularLayout nm scale sortNode g) r (r * ratio) es = .ok s := by
    unfold plotGraph
    simp only [hns, hes]
    cases hd : drawEdges nm (circularLayout nm scale sortNode g) r (r * ratio) es with
    | error x => simp [bind, Except.bind, hd]
    | ok x => simp [bind, Except.bind, hd, pure, Except.pure]
  rw [e, drawEdges_iff]
  constructor
  · intro h u hu v hv huv hc
    obtain ⟨f, hf, hfe, -⟩ := hconn u v huv hc
    obtain ⟨-, h1, h2⟩ := h f hf
    rcases hfe with ⟨rfl, rfl⟩ | ⟨rfl, rfl⟩
    · exact (hplace _ hu).1 h1
    · exact (hplace _ hu).1 h2
  · intro h f hf
    obtain ⟨h1, h2, h3, h4⟩ := (hmem f).1 hf
    have hne : f.u ≠ f.v := fun hh => by rw [hh] at h3; exact lt_irrefl _ h3
    have hcn : g.isConnected f.u f.v = .ok true ∧ g.isConnected f.v f.u = .ok true := by
      obtain ⟨⟨hw, _⟩, _⟩ := hg.good
      rw [Graph.getEdge_ok hw h1 h2] at h4
      have := Graph.edge?_eq_some.1 (Except.ok.inj h4)
      constructor
      · rw [Graph.isConnected_ok_iff hw]
        exact ⟨h1, h2, by simp [this.2.2.2]⟩
      · rw [Graph.isConnected_ok_iff hw]
        exact ⟨h2, h1, by simp [this.2.2.1]⟩
    exact ⟨hr, (hplace _ h1).2 (h _ h1 _ h2 hne hcn.1), (hplace _ h2).2 (h _ h2 _ h1 hne.symm hcn.2)⟩

/-- A text. -/
def Shape.isText : Shape → Bool
  | .text _ _ => true
  | _ => false

/-- The line of an edge. -/
def Shape.isLine : Shape → Bool
  | .arrow _ _ _ _ => true
  | .broken => true
  | _ => false

omit [DecidableEq α] in
theorem drawNodes_inv (nm : Names α) (pos : Dict String Pt) (latent : List String) (r : ℝ) (l : List α) {s : List Shape}
    (h : drawNodes nm pos latent r l = .ok s) : (∀ u ∈ l, ∃ p, dget pos (nm.text u) = some p) ∧ s.countP Shape.isText = l.length ∧ s.countP Shape.isLine = 0 := by
  induction l generalizing s with
  | nil => cases h; exact ⟨by simp, rfl, rfl⟩
  | cons u l ih =>
    unfold drawNodes dgetE at h
    cases hp : dget pos (nm.text u) with
    | none => simp [hp, bind, Except.bind] at h
    | some p =>
      cases hd : drawNodes nm pos latent r l with
      | error x => simp [hp, hd, bind, Except.bind] at h
      | ok t =>
        simp only [hp, hd, bind, Except.bind] at h
        cases h
        obtain ⟨a, b, c⟩ := ih hd
        refine ⟨?_, ?_, ?_⟩
        · intro v hv
          rcases List.mem_cons.1 hv with rfl | hv
          · exact ⟨p, hp⟩
          · exact a v hv
        · rw [List.countP_append, b]
          simp [pltNode, Shape.isText]
          omega
        · rw [List.countP_append, c]
          simp [pltNode, Shape.isLine]

theorem pltEdge_count {p q : Pt} {mu mv : Mark} {r c : ℝ} {s : List Shape} (h : pltEdge p q mu mv r c = .ok s) :
    s.countP Shape.isText = 0 ∧ s.countP Shape.isLine = 1 := by
  by_cases hc : 0 < c
  · by_cases h0 : far p q = 0
    · unfold pltEdge at h
      rw [if_pos hc] at h
      unfold far at h0
      simp only [h0] at h
      cases h
      exact ⟨rfl, rfl⟩
    · rw [c142_edge h0 _ _ hc] at h
      cases h
      constructor <;> (cases mu <;> cases mv <;> simp [Shape.isText, Shape.isLine])
  · unfold pltEdge at h
    rw [if_neg hc] at h
    cases h

omit [DecidableEq α] in
theorem drawEdges_count (nm : Names α) (pos : Dict String Pt) {r c : ℝ} (l : List (Edge α)) {s : List Shape}
    (h : drawEdges nm pos r c l = .ok s) : s.countP Shape.isText = 0 ∧ s.countP Shape.isLine = l.length := by
  induction l generalizing s with
  | nil => cases h; exact ⟨rfl, rfl⟩
  | cons f l ih =>
    obtain ⟨hc, ⟨pu, hu⟩, pv, hv⟩ := (drawEdges_iff nm pos (f :: l)).1 ⟨s, h⟩ f List.mem_cons_self
    obtain ⟨t, ht⟩ := (drawEdges_iff nm pos l).2 fun g hg => (drawEdges_iff nm pos (f :: l)).1 ⟨s, h⟩ g (List.mem_cons_of_mem _ hg)
    unfold drawEdges at h
    rw [hu, hv, ht] at h
    cases hp : pltEdge (toFigure pu) (toFigure pv) f.mu f.mv r c with
    | error x => simp [hp, bind, Except.bind] at h
    | ok y =>
      simp only [hp, bind, Except.bind] at h
      cases h
      obtain ⟨a, b⟩ := ih ht
      obtain ⟨a', b'⟩ := pltEdge_count hp
      rw [List.countP_append, List.countP_append, a, b, a', b']
      simp
      omega

/-- C142: for every layout, the picture has one circle and one text at the place of each node, grey unless the node is latent, one line
for each edge, and the shapes of each edge with the marks that the graph has there; and no other texts or lines. -/
theorem c142_picture {k : Kind} {g : Graph α} (hg : Reachable k g) (nm : Names α) (hnm : nm.Good) (layout : Graph α → Dict String Pt)
    (latent : List String) (r ratio : ℝ) {s : List Shape} (h : plotGraph nm layout latent r ratio g = .ok s) :
    (∀ u ∈ g.nodes, ∃ p, dget (layout g) (nm.text u) = some p ∧ .circle (toFigure p) r (decide (nm.text u ∉ latent)) ∈ s ∧ .text (toFigure p) (nm.text u) ∈ s) ∧
      (∀ u v mu mv, g.nodes.idxOf u < g.nodes.idxOf v → g.getEdge u v = .ok (some ⟨u, v, mu, mv⟩) →
        ∃ pu pv t, dget (layout g) (nm.text u) = some pu ∧ dget (layout g) (nm.text v) = some pv ∧
          pltEdge (toFigure pu) (toFigure pv) mu mv r (r * ratio) = .ok t ∧ t.Sublist s) ∧
      s.countP Shape.isText = g.nodes.length ∧ g.numberOfEdges = .ok (s.countP Shape.isLine) := by
  obtain ⟨es, hes, hmem, -, -, -, hnum, -⟩ := c04_edges hg
  unfold plotGraph at h
  cases hn : drawNodes nm (layout g) latent r g.nodes with
  | error x => simp [hn, bind, Except.bind] at h
  | ok ns =>
    cases hd : drawEdges nm (layout g) r (r * ratio) es with
    | error x => simp [hn, hes, hd, bind, Except.bind] at h
    | ok ls =>
      simp only [hn, hes, hd, bind, Except.bind] at h
      cases h
      obtain ⟨a, b, c⟩ := drawNodes_inv nm (layout g) latent r g.nodes hn
      obtain ⟨ns', hn', hm, -⟩ := drawNodes_ok nm (layout g) latent r g.nodes a
      obtain rfl : ns' = ns := Except.ok.inj (hn'.symm.trans hn)
      obtain ⟨a', b'⟩ := drawEdges_count nm (layout g) es hd
      have hpl : ∀ u p, place nm (layout g) u = .ok p → dget (layout g) (nm.text u) = some p := by
        intro u p hp
        unfold place at hp
        cases hs : nm.asStr u with
        | none => rw [hs] at hp; cases hp
        | some x =>
          rw [hs] at hp
          rw [hnm.text u x hs]
          unfold dgetE at hp
          cases hg : dget (layout g) x with
          | none => simp [hg] at hp
          | some y =>
            simp only [hg] at hp
            cases hp
            rfl
      refine ⟨?_, ?_, ?_, ?_⟩
      · intro u hu
        obtain ⟨p, hp⟩ := a u hu
        obtain ⟨x, y⟩ := hm u hu p hp
        exact ⟨p, hp, List.mem_append_left _ x, List.mem_append_left _ y⟩
      · intro u v mu mv huv he
        have hmem' : (⟨u, v, mu, mv⟩ : Edge α) ∈ es := by
          rw [hmem]
          have hu : u ∈ g.nodes := List.idxOf_lt_length_iff.1 (huv.trans_le List.idxOf_le_length)
          have hv : v ∈ g.nodes := by
            by_contra hv
            obtain ⟨⟨hw, _⟩, _⟩ := hg.good
            rw [Graph.getEdge_err hw (fun hh => hv hh.2)] at he
            cases he
          exact ⟨hu, hv, huv, he⟩
        obtain ⟨pu, pv, t, x, y, z, w⟩ := drawEdges_mem nm (layout g) es hd hmem'
        exact ⟨pu, pv, t, hpl _ _ x, hpl _ _ y, z, w.trans (List.sublist_append_right _ _)⟩
      · rw [List.countP_append, b, a']
        rfl
      · rw [hnum, List.countP_append, c, b', Nat.zero_add]

/-- The nodes are the strings "1", "2", … -/
def exNames : Names Nat := ⟨toString, fun u => some (toString u)⟩

/-- The nodes are the integers 1, 2, … -/
def exInts : Names Nat := ⟨toString, fun _ => none⟩

theorem exNames_good : exNames.Good := ⟨fun _ _ h => Option.some.inj h⟩
theorem exInts_good : exInts.Good := ⟨fun _ _ h => by cases h⟩

/-- C142: with all defaults, a graph with integer nodes and an edge, as the package builds them, is not drawn; with strings it is. -/
theorem c142_false : (¬ ∃ s, plotGraph exInts (circularLayout exInts (45 / 100) false) [] (4 / 100) (1 / 6) (exG .digraph) = .ok s) ∧
    ∃ s, plotGraph exNames (circularLayout exNames (45 / 100) false) [] (4 / 100) (1 / 6) (exG .digraph) = .ok s := by
  rw [c142_returns (exG_reachable .digraph).reachable exInts exInts_good _ _ _ _ _ (by norm_num),
    c142_returns (exG_reachable .digraph).reachable exNames exNames_good _ _ _ _ _ (by norm_num)]
  constructor
  · intro h
    have := h 1 (by decide) 2 (by decide) (by decide) (by decide)
    simp [exInts] at this
  · intros
    rfl

/-! ### Concrete cases -/

example : far (0, 0) (3, 4) = 5 := by
  unfold far
  rw [show ((3 : ℝ) - 0) ^ 2 + (4 - 0) ^ 2 = 5 ^ 2 by norm_num]
  exact Real.sqrt_sq (by norm_num)

/-- Far apart the arrow points to `v`, close together it points back. -/
example : far (0, 0) (1, 0) = 1 := by simp [far]
example : far (0, 0) (1 / 10, 0) ≠ 0 ∧ far (0, 0) (1 / 10, 0) < 2 * (6 / 100) + room .tail (1 / 100) + room .arrow (1 / 100) := by
  have : far (0, 0) (1 / 10, 0) = 1 / 10 := by
    unfold far
    rw [show ((1 / 10 : ℝ) - 0) ^ 2 + (0 - 0) ^ 2 = (1 / 10) ^ 2 by norm_num]
    exact Real.sqrt_sq (by norm_num)
  have h1 : room .tail (1 / 100) = 0 := if_neg (by decide)
  have h2 : room .arrow (1 / 100) = 0 := if_neg (by decide)
  rw [this, h1, h2]
  norm_num
example := c142_edge (p := (0, 0)) (q := (1, 0)) (by simp [far]) .circle .arrow (r := 4 / 100) (c := 1 / 100) (by norm_num)
example : ((exG .digraph).nodes.map exNames.text).Nodup := by decide
example := c143_layout exNames (45 / 100) true (exG .digraph)
example := c143_circle (scale := 45 / 100) (by norm_num) (n := 4) (by norm_num) 1 3
example : (2 : ℝ) * (4 / 100) < far (spot (45 / 100) 35 3) (spot (45 / 100) 35 4) := (c143_overlap 35).2 le_rfl 3 4 (by norm_num) (by norm_num)

end Cdmir.Plot
