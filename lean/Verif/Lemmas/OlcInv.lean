import Verif.Lemmas.Olc

/-! Invariants of the OLC algorithm. -/

set_option linter.unusedSectionVars false

namespace Cdmir.Olc

variable {Col F P : Type} [Zero F] [Sub F] [Mul F] [Div F] {E : Env Col F P} {n : Nat}

/-! ### Invariants -/

/-- The number of latent variables introduced so far. -/
def lat (c : Nat × St3 F) : Nat := c.1 + if c.2.latent then 1 else 0

/-- The two graphs during the third phase. -/
structure GInv (E : Env Col F P) (data : Nat → Col) (n : Nat) (c : Nat × St3 F) : Prop where
  edges : Edges n c.2.udg
  arcs : ∀ a b, (a, b) ∈ c.2.cg → b < n ∧ a ≠ b ∧ a < n + lat c ∧ (a < n → hasEdge c.2.udg a b = false ∧ (b, a) ∉ c.2.cg)
  latents : ∀ k < lat c, ∃ x y z, x ≠ y ∧ z ≠ x ∧ z ≠ y ∧ (n + k, x) ∈ c.2.cg ∧ (n + k, y) ∈ c.2.cg ∧ (n + k, z) ∈ c.2.cg
  cover : ∀ x y, x < n → y < n → x ≠ y → hasEdge c.2.udg x y = true ∨ (x, y) ∈ c.2.cg ∨ (y, x) ∈ c.2.cg ∨
    (∃ k, n ≤ k ∧ (k, x) ∈ c.2.cg ∧ (k, y) ∈ c.2.cg) ∨ Evidence E data x y ∨ Evidence E data y x

/-- The two graphs during the first phases. -/
structure GInv0 (n : Nat) (s : St Col) : Prop where
  edges : Edges n s.udg
  arcs : ∀ a b, (a, b) ∈ s.cg → a < n ∧ b < n ∧ a ≠ b ∧ hasEdge s.udg a b = false ∧ (b, a) ∉ s.cg
  cover : ∀ x y, x < n → y < n → x ≠ y → hasEdge s.udg x y = true ∨ (x, y) ∈ s.cg ∨ (y, x) ∈ s.cg

theorem hasEdge_false {u v : List (Nat × Nat)} (h : v.Sublist u) {x y : Nat} (e : hasEdge u x y = false) : hasEdge v x y = false := by
  by_contra hc
  have := hasEdge_sub h (by simpa using hc)
  rw [e] at this
  cases this

theorem hasEdge_removed (u : List (Nat × Nat)) (x y : Nat) : hasEdge (removeEdge u x y) x y = false := by
  by_contra hc
  have := hasEdge_remove.1 (by simpa using hc)
  simp at this

theorem GInv0.init (n : Nat) (data : Nat → Col) : GInv0 n (Olc.init n data) := by
  refine ⟨edges_init n, by simp, fun x y hx hy ne => Or.inl (hasEdge_iff.2 ?_)⟩
  simp only [pairs_range]
  omega

theorem GInv0.dir {s s' : St Col} (h : GInv0 n s) (d : Dir n s s') : GInv0 n s' := by
  have hsub := d.sub.1
  cases d with
  | mk x y hx hy ne he eu ec =>
    refine ⟨h.edges.sub hsub, ?_, ?_⟩
    · intro a b hab
      rw [ec, mem_addArc] at hab
      rcases hab with hab | hab
      · obtain ⟨h1, h2, h3, h4, h5⟩ := h.arcs a b hab
        refine ⟨h1, h2, h3, hasEdge_false hsub h4, ?_⟩
        rw [ec, mem_addArc]
        rintro (h6 | h6)
        · exact h5 h6
        · cases h6
          rw [he] at h4
          cases h4
      · cases hab
        refine ⟨hy, hx, fun e => ne e.symm, ?_, ?_⟩
        · rw [eu, hasEdge_comm]; exact hasEdge_removed _ _ _
        · rw [ec, mem_addArc]
          rintro (h6 | h6)
          · have := (h.arcs _ _ h6).2.2.2.1
            rw [he] at this
            cases this
          · exact ne (Prod.mk.inj h6).1
    · intro a b ha hb nab
      rcases h.cover a b ha hb nab with h1 | h1 | h1
      · by_cases hc : (a = x ∧ b = y) ∨ (a = y ∧ b = x)
        · rcases hc with ⟨rfl, rfl⟩ | ⟨rfl, rfl⟩
          · exact Or.inr (Or.inr (by rw [ec, mem_addArc]; exact Or.inr rfl))
          · exact Or.inr (Or.inl (by rw [ec, mem_addArc]; exact Or.inr rfl))
        · exact Or.inl (by rw [eu]; exact hasEdge_remove.2 ⟨h1, hc⟩)
      · exact Or.inr (Or.inl (by rw [ec, mem_addArc]; exact Or.inl h1))
      · exact Or.inr (Or.inr (by rw [ec, mem_addArc]; exact Or.inl h1))

theorem GInv0.dirs {s s' : St Col} (h : GInv0 n s) (d : Dirs n s s') : GInv0 n s' := by
  induction d with
  | refl => exact h
  | tail _ d ih => exact ih.dir d

theorem GInv0.start {s : St Col} (h : GInv0 n s) (data : Nat → Col) : GInv E data n (0, (init3 s : St3 F)) := by
  refine ⟨h.edges, ?_, ?_, ?_⟩
  · intro a b hab
    obtain ⟨h1, h2, h3, h4, h5⟩ := h.arcs a b hab
    exact ⟨h2, h3, by omega, fun _ => ⟨h4, h5⟩⟩
  · intro k hk
    simp [lat] at hk
  · intro x y hx hy ne
    rcases h.cover x y hx hy ne with h | h | h
    · exact Or.inl h
    · exact Or.inr (Or.inl h)
    · exact Or.inr (Or.inr (Or.inl h))

theorem GInv.reach {data : Nat → Col} {c c' : Nat × St3 F} (h : GInv E data n c) (r : Reach E data n c c') : GInv E data n c' := by
  cases r with
  | next lid s s' eu ec eA el eo =>
    have el' : lat ((if s.latent then lid + 1 else lid, s') : Nat × St3 F) = lat (lid, s) := by
      unfold lat
      rw [el]
      cases s.latent <;> simp
    refine ⟨?_, ?_, ?_, ?_⟩
    · have := h.edges; simp only at this ⊢; rwa [eu]
    · have := h.arcs; rw [el']; simp only at this ⊢; rwa [eu, ec]
    · have := h.latents; rw [el']; simp only at this ⊢; rwa [ec]
    · have := h.cover; simp only at this ⊢; rwa [eu, ec]
  | move lid s s' m =>
    have hsub := m.sub
    have hed : Edges n s'.udg := h.edges.sub hsub
    have harcs := h.arcs
    have hlat := h.latents
    have hcov := h.cover
    simp only at harcs hlat hcov
    cases m with
    | test x y he ev eu ec eA el eo =>
      have ell : lat (lid, s') = lat (lid, s) := by simp [lat, el]
      refine ⟨hed, ?_, ?_, ?_⟩
      · intro a b hab
        simp only [ec, ell] at hab ⊢
        obtain ⟨h1, h2, h3, h4⟩ := harcs a b hab
        exact ⟨h1, h2, h3, fun ha => ⟨hasEdge_false hsub (h4 ha).1, (h4 ha).2⟩⟩
      · rw [ell]; simp only [ec]; exact hlat
      · intro a b ha hb nab
        simp only [ec]
        rcases hcov a b ha hb nab with h1 | h1
        · by_cases hc : (a = x ∧ b = y) ∨ (a = y ∧ b = x)
          · rcases hc with ⟨rfl, rfl⟩ | ⟨rfl, rfl⟩
            · exact Or.inr (Or.inr (Or.inr (Or.inr (Or.inl ev))))
            · exact Or.inr (Or.inr (Or.inr (Or.inr (Or.inr ev))))
          · exact Or.inl (by rw [eu]; exact hasEdge_remove.2 ⟨h1, hc⟩)
        · exact Or.inr h1
    | orient x y he eu ec eA el eo =>
      have ell : lat (lid, s') = lat (lid, s) := by simp [lat, el]
      obtain ⟨hx, hy, ne⟩ := Edges.of h.edges he
      refine ⟨hed, ?_, ?_, ?_⟩
      · intro a b hab
        simp only [ec, ell, mem_addArc] at hab ⊢
        rcases hab with hab | hab
        · obtain ⟨h1, h2, h3, h4⟩ := harcs a b hab
          refine ⟨h1, h2, h3, fun ha => ⟨hasEdge_false hsub (h4 ha).1, ?_⟩⟩
          rintro (h6 | h6)
          · exact (h4 ha).2 h6
          · cases h6
            have := (h4 ha).1
            rw [hasEdge_comm, he] at this
            cases this
        · cases hab
          refine ⟨hy, ne, by omega, fun _ => ⟨?_, ?_⟩⟩
          · rw [eu]; exact hasEdge_removed _ _ _
          · rintro (h6 | h6)
            · have := ((harcs _ _ h6).2.2.2 hy).1
              rw [hasEdge_comm, he] at this
              cases this
            · exact ne (Prod.mk.inj h6).2
      · rw [ell]
        intro k hk
        obtain ⟨a, b, c, h1, h2, h3, h4, h5, h6⟩ := hlat k hk
        simp only [ec, mem_addArc]
        exact ⟨a, b, c, h1, h2, h3, Or.inl h4, Or.inl h5, Or.inl h6⟩
      · intro a b ha hb nab
        simp only [ec, mem_addArc]
        rcases hcov a b ha hb nab with h1 | h1 | h1 | ⟨k, h0, h1, h2⟩ | h1
        · by_cases hc : (a = x ∧ b = y) ∨ (a = y ∧ b = x)
          · rcases hc with ⟨rfl, rfl⟩ | ⟨rfl, rfl⟩
            · exact Or.inr (Or.inl (Or.inr rfl))
            · exact Or.inr (Or.inr (Or.inl (Or.inr rfl)))
          · exact Or.inl (by rw [eu]; exact hasEdge_remove.2 ⟨h1, hc⟩)
        · exact Or.inr (Or.inl (Or.inl h1))
        · exact Or.inr (Or.inr (Or.inl (Or.inl h1)))
        · exact Or.inr (Or.inr (Or.inr (Or.inl ⟨k, h0, Or.inl h1, Or.inl h2⟩)))
        · exact Or.inr (Or.inr (Or.inr (Or.inr h1)))
    | fail eu ec eA el eo =>
      have ell : lat (lid, s') = lat (lid, s) := by simp [lat, el]
      refine ⟨hed, ?_, ?_, ?_⟩
      · rw [ell]; simp only [eu, ec]; exact harcs
      · rw [ell]; simp only [ec]; exact hlat
      · simp only [eu, ec]; exact hcov
    | latent x y z hx hy hz xy zx zy hl he eu ec eA el eo =>
      have ell : lat (lid, s') = lid + 1 := by simp [lat, el]
      have elo : lat (lid, s) ≤ lid + 1 ∧ lid ≤ lat (lid, s) := by unfold lat; cases s.latent <;> simp
      refine ⟨hed, ?_, ?_, ?_⟩
      · intro a b hab
        simp only [ec, ell, mem_addArc] at hab ⊢
        have hnew : ∀ w, w < n → w < n ∧ lid + n ≠ w ∧ lid + n < n + (lid + 1) ∧ (lid + n < n →
            hasEdge s'.udg (lid + n) w = false ∧
              ¬ ((((w, lid + n) ∈ s.cg ∨ (w, lid + n) = (lid + n, x)) ∨ (w, lid + n) = (lid + n, y)) ∨ (w, lid + n) = (lid + n, z))) := by
          intro w hw
          exact ⟨hw, by omega, by omega, fun h => by omega⟩
        rcases hab with ((hab | hab) | hab) | hab
        · obtain ⟨h1, h2, h3, h4⟩ := harcs a b hab
          refine ⟨h1, h2, by omega, fun ha => ⟨hasEdge_false hsub (h4 ha).1, ?_⟩⟩
          have hb : b ≠ lid + n := by omega
          simp only [Prod.mk.injEq, hb, false_and, or_false]
          exact (h4 ha).2
        · cases hab; exact hnew x hx
        · cases hab; exact hnew y hy
        · cases hab; exact hnew z hz
      · rw [ell]
        intro k hk
        simp only [ec, mem_addArc]
        by_cases hkl : k < lat (lid, s)
        · obtain ⟨a, b, c, h1, h2, h3, h4, h5, h6⟩ := hlat k hkl
          exact ⟨a, b, c, h1, h2, h3, Or.inl (Or.inl (Or.inl h4)), Or.inl (Or.inl (Or.inl h5)), Or.inl (Or.inl (Or.inl h6))⟩
        · have : n + k = lid + n := by omega
          rw [this]
          exact ⟨x, y, z, xy, zx, zy, Or.inl (Or.inl (Or.inr rfl)), Or.inl (Or.inr rfl), Or.inr rfl⟩
      · intro a b ha hb nab
        simp only [ec, mem_addArc]
        rcases hcov a b ha hb nab with h1 | h1 | h1 | ⟨k, h0, h1, h2⟩ | h1
        · by_cases hc : (a = x ∧ b = z) ∨ (a = z ∧ b = x)
          · refine Or.inr (Or.inr (Or.inr (Or.inl ⟨lid + n, by omega, ?_, ?_⟩)))
            · rcases hc with ⟨rfl, rfl⟩ | ⟨rfl, rfl⟩
              · exact Or.inl (Or.inl (Or.inr rfl))
              · exact Or.inr rfl
            · rcases hc with ⟨rfl, rfl⟩ | ⟨rfl, rfl⟩
              · exact Or.inr rfl
              · exact Or.inl (Or.inl (Or.inr rfl))
          · by_cases hd : (a = y ∧ b = z) ∨ (a = z ∧ b = y)
            · refine Or.inr (Or.inr (Or.inr (Or.inl ⟨lid + n, by omega, ?_, ?_⟩)))
              · rcases hd with ⟨rfl, rfl⟩ | ⟨rfl, rfl⟩
                · exact Or.inl (Or.inr rfl)
                · exact Or.inr rfl
              · rcases hd with ⟨rfl, rfl⟩ | ⟨rfl, rfl⟩
                · exact Or.inr rfl
                · exact Or.inl (Or.inr rfl)
            · exact Or.inl (by rw [eu]; exact hasEdge_remove.2 ⟨hasEdge_remove.2 ⟨h1, hc⟩, hd⟩)
        · exact Or.inr (Or.inl (Or.inl (Or.inl (Or.inl h1))))
        · exact Or.inr (Or.inr (Or.inl (Or.inl (Or.inl (Or.inl h1)))))
        · exact Or.inr (Or.inr (Or.inr (Or.inl ⟨k, h0, Or.inl (Or.inl (Or.inl h1)), Or.inl (Or.inl (Or.inl h2))⟩)))
        · exact Or.inr (Or.inr (Or.inr (Or.inr h1)))

theorem GInv.reaches {data : Nat → Col} {c c' : Nat × St3 F} (h : GInv E data n c)
    (r : Relation.ReflTransGen (Reach E data n) c c') : GInv E data n c' := by
  induction r with
  | refl => exact h
  | tail _ d ih => exact ih.reach d

/-! ### Counting edges -/

/-- Each latent variable costs an edge, the first one two. -/
def Count (n : Nat) (c : Nat × St3 F) : Prop :=
  Edges n c.2.udg ∧ lat c + c.2.udg.length ≤ n * (n - 1) / 2 ∧ (1 ≤ lat c → lat c + c.2.udg.length + 1 ≤ n * (n - 1) / 2)

theorem Edges.length_le {u : List (Nat × Nat)} (h : Edges n u) : u.length ≤ n * (n - 1) / 2 := by
  have h1 : u.length ≤ (pairs (List.range n)).length := (List.subperm_of_subset h.1 fun e he => pairs_range.2 (h.2 e he)).length_le
  have h2 := pairs_length (List.range n)
  rw [List.length_range] at h2
  omega

/-- With all edges there, every pair is joined. -/
theorem Edges.full {u : List (Nat × Nat)} (h : Edges n u) (e : n * (n - 1) / 2 ≤ u.length) {x y : Nat} (hx : x < n) (hy : y < n)
    (ne : x ≠ y) : hasEdge u x y = true := by
  have h2 := pairs_length (List.range n)
  rw [List.length_range] at h2
  have hp : u.Perm (pairs (List.range n)) :=
    (List.subperm_of_subset h.1 fun e he => pairs_range.2 (h.2 e he)).perm_of_length_le (by omega)
  rw [hasEdge_iff, hp.mem_iff, hp.mem_iff, pairs_range, pairs_range]
  simp only
  omega

theorem Count.reach {data : Nat → Col} {c c' : Nat × St3 F} (h : Count n c) (r : Reach E data n c c') : Count n c' := by
  cases r with
  | next lid s s' eu ec eA el eo =>
    have el' : lat ((if s.latent then lid + 1 else lid, s') : Nat × St3 F) = lat (lid, s) := by
      unfold lat
      rw [el]
      cases s.latent <;> simp
    unfold Count at h ⊢
    rw [el']
    simp only at h ⊢
    rwa [eu]
  | move lid s s' m =>
    have hsub := m.sub
    have hle := hsub.length_le
    obtain ⟨h1, h2, h3⟩ := h
    have hed : Edges n s'.udg := Edges.sub h1 hsub
    refine ⟨hed, ?_⟩
    simp only at h2 h3 ⊢
    have same : s'.latent = s.latent → lat (lid, s') + s'.udg.length ≤ n * (n - 1) / 2 ∧
        (1 ≤ lat (lid, s') → lat (lid, s') + s'.udg.length + 1 ≤ n * (n - 1) / 2) := by
      intro e
      have ell : lat (lid, s') = lat (lid, s) := by simp [lat, e]
      rw [ell]
      refine ⟨by omega, fun h => ?_⟩
      have := h3 h
      omega
    cases m with
    | test x y he ev eu ec eA el eo => exact same el
    | orient x y he eu ec eA el eo => exact same el
    | fail eu ec eA el eo => exact same el
    | latent x y z hx hy hz xy zx zy hl he eu ec eA el eo =>
      by_cases hf : s.latent = true
      · exact same (by rw [el, hf])
      · have e0 : lat (lid, s) = lid := by simp [lat, hf]
        have e1 : lat (lid, s') = lid + 1 := by simp [lat, el]
        have hlt := removeTwo_lt xy zy he
        rw [← eu] at hlt
        rw [e1]
        rw [e0] at h2 h3
        have hlt' : s'.udg.length < s.udg.length := hlt
        by_cases hl0 : 1 ≤ lid
        · have := h3 hl0
          exact ⟨by omega, fun _ => by omega⟩
        · by_cases hfull : n * (n - 1) / 2 ≤ s.udg.length
          · have := removeTwo_both xy zy (Edges.full h1 hfull hx hz (fun e => zx e.symm)) (Edges.full h1 hfull hy hz (fun e => zy e.symm))
            rw [← eu] at this
            have this' : s'.udg.length + 2 ≤ s.udg.length := this
            exact ⟨by omega, fun _ => by omega⟩
          · exact ⟨by omega, fun _ => by omega⟩

theorem Count.reaches {data : Nat → Col} {c c' : Nat × St3 F} (h : Count n c)
    (r : Relation.ReflTransGen (Reach E data n) c c') : Count n c' := by
  induction r with
  | refl => exact h
  | tail _ d ih => exact ih.reach d

theorem Count.start {s : St Col} (h : Edges n s.udg) : Count n (0, (init3 s : St3 F)) := by
  refine ⟨h, ?_, ?_⟩
  · have := Edges.length_le h
    simp only [lat]
    simpa using this
  · simp [lat]

/-! ### Entries of `A` -/

/-- For two observed variables whose edge was removed before the third phase, the graphs and the entries of `A` do not change any
more. -/
theorem fixed_reach {data : Nat → Col} {c c' : Nat × St3 F} (r : Relation.ReflTransGen (Reach E data n) c c') {i j : Nat}
    (hi : i < n) (hj : j < n) (ne : i ≠ j) (h : hasEdge c.2.udg i j = false) :
    hasEdge c'.2.udg i j = false ∧ c'.2.A i j = c.2.A i j ∧ ((i, j) ∈ c'.2.cg ↔ (i, j) ∈ c.2.cg) := by
  induction r with
  | refl => exact ⟨h, rfl, Iff.rfl⟩
  | tail _ d ih =>
    obtain ⟨h1, h2, h3⟩ := ih
    cases d with
    | next lid s s' eu ec eA el eo =>
      simp only at h1 h2 h3 ⊢
      rw [eu, ec, eA]
      exact ⟨h1, h2, h3⟩
    | move lid s s' m =>
      have hsub := m.sub
      simp only at h1 h2 h3 ⊢
      refine ⟨hasEdge_false hsub h1, ?_⟩
      cases m with
      | test x y he ev eu ec eA el eo => rw [ec, eA]; exact ⟨h2, h3⟩
      | orient x y he eu ec eA el eo =>
        refine ⟨(eA i j hi hj ne h1).trans h2, ?_⟩
        rw [ec, mem_addArc, ← h3]
        refine ⟨fun h => h.resolve_right ?_, Or.inl⟩
        intro e
        cases e
        rw [he] at h1
        cases h1
      | fail eu ec eA el eo => rw [ec]; exact ⟨(eA i j hi hj ne h1).trans h2, h3⟩
      | latent x y z hx hy hz xy zx zy hl he eu ec eA el eo =>
        refine ⟨(eA i j hi hj ne h1).trans h2, ?_⟩
        rw [ec, mem_addArc, mem_addArc, mem_addArc, ← h3]
        have : i ≠ lid + n := by omega
        simp [this]

theorem Dirs.arcs {s s' : St Col} (d : Dirs n s s') {e : Nat × Nat} (h : e ∈ s.cg) : e ∈ s'.cg := by
  induction d with
  | refl => exact h
  | tail _ d ih =>
    cases d with
    | mk x y hx hy ne he eu ec => rw [ec, mem_addArc]; exact Or.inl ih

end Cdmir.Olc
