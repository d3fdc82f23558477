import Verif.Lemmas.OlcInv
import Mathlib.Data.Int.Basic
import Mathlib.Tactic.NormNum

/-! C77 to C81: the OLC algorithm. -/

set_option linter.unusedSectionVars false

namespace Cdmir.Olc

variable {Col F P : Type} [Zero F] [Sub F] [Mul F] [Div F] {E : Env Col F P} {n : Nat}

theorem olc_one (data : Nat → Col) (fuel : Nat) : olc E (fuel + 1) 1 data = Except.error .exception := rfl

theorem olc_ok (hE : E.Right) {data : Nat → Col} {fuel : Nat} {r : Result Col F} (h : olc E fuel n data = Except.ok r) :
    n ≠ 1 ∧ ∃ s1 s2 s' lid', Dirs n (init n data) s1 ∧ phase1 E n (fuel + (pairs (List.range n)).length + 1) (init n data) = Except.ok s1 ∧
      (∀ p ∈ arrangements n, (step1 E s1 p.1 p.2).2 = false) ∧ Dirs n s1 s2 ∧ s2.data = s1.data ∧
      phase2 E n (fuel + (pairs (List.range n)).length + 1) s1 = Except.ok s2 ∧
      r = ⟨lid' + n, adjmatOf s'.udg s'.cg, coefOf n s'.cg s'.A, s2.data⟩ ∧
      Relation.ReflTransGen (Reach E s2.data n) (0, init3 s2) (lid', s') ∧ s'.latent = false := by
  have h' : olc E (fuel + (pairs (List.range n)).length + 1) n data = Except.ok r := by
    rw [olc_mono data (fuel := fuel) (by rw [h]; simp) (by omega), h]
  have hn : n ≠ 1 := by
    rintro rfl
    rw [olc_one] at h'
    cases h'
  obtain ⟨s1, s2, e1, d1, f1, e2, d2, dd, h3⟩ := olc_reach hE hn data (fuel := fuel + (pairs (List.range n)).length + 1) (by omega)
  rcases h3 with ⟨s', lid', e, rr, f⟩ | ⟨e, _⟩
  · rw [h'] at e
    cases e
    exact ⟨hn, s1, s2, s', lid', d1, e1, f1, d2, dd, e2, rfl, rr, f⟩
  · rw [h'] at e
    cases e

/-- C77. For all data and all answers of the tests the algorithm ends: with `n (n-1) / 2 + 1` rounds allowed in each of its three
loops the outcome does not depend on the bound any more. -/
theorem c77_ends (hE : E.Right) (n : Nat) (data : Nat → Col) :
    ∃ out, out ≠ Except.error .fuel ∧ ∀ fuel, n * (n - 1) / 2 + 1 ≤ fuel → olc E fuel n data = out := by
  have hl := pairs_length (List.range n)
  rw [List.length_range] at hl
  by_cases hn : n = 1
  · subst hn
    refine ⟨Except.error .exception, by simp, fun fuel hf => ?_⟩
    obtain ⟨k, rfl⟩ : ∃ k, fuel = k + 1 := ⟨fuel - 1, by omega⟩
    exact olc_one data k
  · have key : olc E (n * (n - 1) / 2 + 1) n data ≠ Except.error .fuel := by
      obtain ⟨s1, s2, _, _, _, _, _, _, h3⟩ := olc_reach hE hn data (fuel := n * (n - 1) / 2 + 1) (by omega)
      rcases h3 with ⟨s', lid', e, _⟩ | ⟨e, _⟩ <;> rw [e] <;> simp
    exact ⟨_, key, fun fuel hf => olc_mono data key hf⟩

theorem adjmat_one {u c : List (Nat × Nat)} {i j : Nat} : adjmatOf u c i j = 1 ↔ (j, i) ∈ c := by
  unfold adjmatOf
  split
  · simp [*]
  · split <;> simp [*]

theorem adjmat_two {u c : List (Nat × Nat)} {i j : Nat} : adjmatOf u c i j = 2 ↔ (j, i) ∉ c ∧ hasEdge u i j = true := by
  unfold adjmatOf
  split
  · simp [*]
  · split <;> simp [*]

theorem olc_inv (hE : E.Right) {data : Nat → Col} {fuel : Nat} {r : Result Col F} (h : olc E fuel n data = Except.ok r) :
    ∃ s' lid', r.size = lid' + n ∧ r.adjmat = adjmatOf s'.udg s'.cg ∧ r.coef = coefOf n s'.cg s'.A ∧
      GInv E r.data n (lid', s') ∧ lat (lid', s') = lid' := by
  obtain ⟨hn, s1, s2, s', lid', d1, _, _, d2, dd, _, rfl, rr, f⟩ := olc_ok hE h
  refine ⟨s', lid', rfl, rfl, rfl, ?_, by simp [lat, f]⟩
  exact ((((GInv0.init n data).dirs d1).dirs d2).start s2.data).reaches rr

/-- C77. The matrix `adjmat` describes a mixed graph: entries are 0, 1 and 2; no loops; 2 is written in both places, for observed
variables; 1 (from the column to the row variable) is written in one place only, and the head of the arrow is observed. -/
theorem c77_graph (hE : E.Right) {data : Nat → Col} {fuel : Nat} {r : Result Col F} (h : olc E fuel n data = Except.ok r) :
    n ≤ r.size ∧ ∀ i j, r.adjmat i j ≤ 2 ∧ r.adjmat i i = 0 ∧ (r.adjmat i j = 2 → r.adjmat j i = 2 ∧ i < n ∧ j < n) ∧
      (r.adjmat i j = 1 → r.adjmat j i = 0 ∧ i < n ∧ j < r.size) := by
  obtain ⟨s', lid', e1, e2, e3, g, hl⟩ := olc_inv hE h
  refine ⟨by omega, fun i j => ?_⟩
  have arcs := g.arcs
  have edges := g.edges
  simp only [hl] at arcs edges
  rw [e1, e2]
  refine ⟨?_, ?_, ?_, ?_⟩
  · unfold adjmatOf
    split
    · omega
    · split <;> omega
  · unfold adjmatOf
    rw [if_neg, if_neg]
    · intro hc
      exact (Edges.of edges hc).2.2 rfl
    · intro hc
      exact (arcs _ _ hc).2.1 rfl
  · rw [adjmat_two]
    rintro ⟨h1, h2⟩
    obtain ⟨a, b, c⟩ := Edges.of edges h2
    refine ⟨adjmat_two.2 ⟨fun hc => ?_, by rw [hasEdge_comm]; exact h2⟩, a, b⟩
    have := ((arcs _ _ hc).2.2.2 a).1
    rw [h2] at this
    cases this
  · rw [adjmat_one]
    intro hc
    obtain ⟨h1, h2, h3, h4⟩ := arcs _ _ hc
    refine ⟨?_, h1, by omega⟩
    unfold adjmatOf
    by_cases hj : j < n
    · obtain ⟨h5, h6⟩ := h4 hj
      rw [if_neg h6, if_neg (by rw [h5]; simp)]
    · rw [if_neg, if_neg]
      · intro he
        exact hj (Edges.of edges he).1
      · intro he
        exact hj (arcs _ _ he).1

/-- C77. Every latent variable of the result points to at least three observed variables. -/
theorem c77_latent (hE : E.Right) {data : Nat → Col} {fuel : Nat} {r : Result Col F} (h : olc E fuel n data = Except.ok r) {l : Nat}
    (hl : n ≤ l) (hs : l < r.size) : ∃ x y z, x ≠ y ∧ z ≠ x ∧ z ≠ y ∧ x < n ∧ y < n ∧ z < n ∧
      r.adjmat x l = 1 ∧ r.adjmat y l = 1 ∧ r.adjmat z l = 1 := by
  obtain ⟨s', lid', e1, e2, e3, g, hlat⟩ := olc_inv hE h
  obtain ⟨x, y, z, h1, h2, h3, h4, h5, h6⟩ := g.latents (l - n) (by omega)
  have : n + (l - n) = l := by omega
  rw [this] at h4 h5 h6
  rw [e2]
  exact ⟨x, y, z, h1, h2, h3, (g.arcs _ _ h4).1, (g.arcs _ _ h5).1, (g.arcs _ _ h6).1, adjmat_one.2 h4, adjmat_one.2 h5,
    adjmat_one.2 h6⟩

/-- C77. For every two observed variables the result gives an account: they are joined by an undirected edge or an arrow, they have
a latent cause in common, or one of them passed the test of independence (`pval >= beta`) from a combination of the other one with
further columns. -/
theorem c77_pairs (hE : E.Right) {data : Nat → Col} {fuel : Nat} {r : Result Col F} (h : olc E fuel n data = Except.ok r)
    (hz : E.geBeta E.zeroP = false) {x y : Nat} (hx : x < n) (hy : y < n) (ne : x ≠ y) :
    r.adjmat x y = 2 ∨ r.adjmat x y = 1 ∨ r.adjmat y x = 1 ∨
    (∃ l, n ≤ l ∧ l < r.size ∧ r.adjmat x l = 1 ∧ r.adjmat y l = 1) ∨
    (∃ (omega : List F) (cs : List Nat), E.geBeta (E.pval (E.comb omega (r.data x :: cs.map r.data)) (r.data y)) = true) ∨
    (∃ (omega : List F) (cs : List Nat), E.geBeta (E.pval (E.comb omega (r.data y :: cs.map r.data)) (r.data x)) = true) := by
  obtain ⟨s', lid', e1, e2, e3, g, hlat⟩ := olc_inv hE h
  rw [e2, e1]
  have ev : ∀ a b, Evidence E r.data a b →
      ∃ (omega : List F) (cs : List Nat), E.geBeta (E.pval (E.comb omega (r.data a :: cs.map r.data)) (r.data b)) = true := by
    rintro a b (h | h)
    · rw [hz] at h; cases h
    · exact h
  rcases g.cover x y hx hy ne with h1 | h1 | h1 | ⟨k, h0, h1, h2⟩ | h1 | h1
  · by_cases hc : (y, x) ∈ s'.cg
    · exact Or.inr (Or.inl (adjmat_one.2 hc))
    · exact Or.inl (adjmat_two.2 ⟨hc, h1⟩)
  · exact Or.inr (Or.inr (Or.inl (adjmat_one.2 h1)))
  · exact Or.inr (Or.inl (adjmat_one.2 h1))
  · refine Or.inr (Or.inr (Or.inr (Or.inl ⟨k, h0, ?_, adjmat_one.2 h1, adjmat_one.2 h2⟩)))
    have := (g.arcs _ _ h1).2.2.1
    omega
  · exact Or.inr (Or.inr (Or.inr (Or.inr (Or.inl (ev _ _ h1)))))
  · exact Or.inr (Or.inr (Or.inr (Or.inr (Or.inr (ev _ _ h1)))))

/-- C78 (the part that holds). With zero, two, three or four columns `olc` returns, for all data and all answers of the tests. The
full property asks this for every number of columns; see `c78_one` and `c78_false`. -/
theorem c78_small_partial (hE : E.Right) (hn : n ≤ 4) (hn1 : n ≠ 1) (data : Nat → Col) {fuel : Nat} (hf : n * (n - 1) / 2 + 1 ≤ fuel) :
    ∃ r, olc E fuel n data = Except.ok r := by
  have hl := pairs_length (List.range n)
  rw [List.length_range] at hl
  obtain ⟨s1, s2, _, d1, _, _, d2, _, h3⟩ := olc_reach hE hn1 data (fuel := fuel) (by omega)
  rcases h3 with ⟨s', lid', e, _⟩ | ⟨e, lid', s', rr, h1, h2⟩
  · exact ⟨_, e⟩
  · exfalso
    have hed : Edges n s2.udg := ((edges_init n).sub d1.sub).sub d2.sub
    obtain ⟨_, c2, c3⟩ := (Count.start (F := F) hed).reaches rr
    have hlat : lid' ≤ lat (lid', s') := by simp [lat]
    simp only at c2 c3
    have h4 : n = 0 ∨ n = 2 ∨ n = 3 ∨ n = 4 := by omega
    rcases h4 with rfl | rfl | rfl | rfl
    · have := c2; omega
    · have := c3 (by omega); omega
    · have := c3 (by omega); omega
    · have := c3 (by omega); omega

/-- C78. A table with a single column always raises `NetworkXError`: the only variable is not a node of the graph. -/
theorem c78_one (data : Nat → Col) {fuel : Nat} (hf : 1 ≤ fuel) : olc E fuel 1 data = Except.error .exception := by
  obtain ⟨k, rfl⟩ : ∃ k, fuel = k + 1 := ⟨fuel - 1, by omega⟩
  exact olc_one data k

end Cdmir.Olc
