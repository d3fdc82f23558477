import Verif.Lemmas.Trail

/-! Facts about d-separation over an arbitrary relation. -/

namespace Cdmir
namespace Spec
variable {α : Type} {R : α → α → Prop} {Z : α → Prop}

theorem IsPath.reverse {p : List α} {x y : α} (h : IsPath R p x y) : IsPath R p.reverse y x := by
  obtain ⟨h1, h2, h3, h4⟩ := h
  exact ⟨List.nodup_reverse.2 h1, by rw [List.head?_reverse]; exact h3, by rw [List.getLast?_reverse]; exact h2,
    Linked.reverse h4⟩

theorem Blocked.reverse {p : List α} (h : Blocked R Z p) : Blocked R Z p.reverse := by
  by_contra hn
  rw [← open_iff_not_blocked] at hn
  have := hn.reverse
  rw [List.reverse_reverse, open_iff_not_blocked] at this
  exact this h

theorem DSep.symm {x y : α} (h : DSep R x y Z) : DSep R y x Z := by
  intro p hp
  have := (h _ hp.reverse).reverse
  rwa [List.reverse_reverse] at this

theorem not_dsep_self (x : α) : ¬ DSep R x x Z := by
  intro h
  obtain ⟨a, b, c, hi, _⟩ := h [x] ⟨by simp, by simp, by simp, fun a b hi => by have := hi.length_le; simp at this⟩
  have := hi.length_le
  simp at this

theorem not_dsep_of_adj {x y : α} (hne : x ≠ y) (ha : Adj R x y) : ¬ DSep R x y Z := by
  intro h
  obtain ⟨a, b, c, hi, _⟩ := h [x, y] ⟨by simp [hne], by simp, by simp, fun a b hi => by
    have h2 := hi.eq_of_length (by simp)
    simp only [List.cons.injEq, and_true] at h2
    rw [h2.1, h2.2]; exact ha⟩
  have := hi.length_le
  simp at this

theorem Acyclic.asymm (h : Acyclic R) : ∀ u v, R u v → ¬ R v u :=
  fun u _ h1 h2 => h u ((Relation.TransGen.single h1).tail h2)

theorem Acyclic.irrefl (h : Acyclic R) (u : α) : ¬ R u u := fun h1 => h u (Relation.TransGen.single h1)

theorem no_descending (ac : Acyclic R) {x y : α} (hnd : ¬ Desc R y x) (t : List α) :
    ∀ b c, Linked R (b :: c :: t) → Open R (fun w => R w y) (b :: c :: t) → R b c → Desc R y b →
      (c :: t).getLast? = some x → False := by
  induction t with
  | nil =>
    intro b c _ _ hbc hyb hl
    simp at hl
    subst hl
    exact hnd (hyb.tail hbc)
  | cons d t ih =>
    intro b c hlk ho hbc hyb hl
    have hlk' : Linked R (c :: d :: t) := fun u v hi => hlk u v (List.infix_cons hi)
    rcases hlk' c d (pair_infix_cons.2 (Or.inl ⟨rfl, rfl⟩)) with hcd | hdc
    · exact ih c d hlk' ho.tail hcd (hyb.tail hbc) (by rwa [List.getLast?_cons_cons] at hl)
    · obtain ⟨w, hw, hcw⟩ := (ho b c d (triple_infix_cons.2 (Or.inl ⟨rfl, t, rfl⟩))).1 ⟨hbc, hdc⟩
      have h1 : Relation.TransGen R y c := Relation.TransGen.tail' hyb hbc
      have h2 : Relation.TransGen R y w := h1.trans_left hcw
      exact ac y (h2.tail hw)

/-- The parents of a node separate it from every non-adjacent node that is not a descendant of it. -/
theorem dsep_parents (ac : Acyclic R) {x y : α} (hxy : x ≠ y) (hna : ¬ Adj R x y) (hnd : ¬ Desc R y x) :
    DSep R x y (fun w => R w y) := by
  apply DSep.symm
  intro p hp
  by_contra hb
  rw [← open_iff_not_blocked] at hb
  obtain ⟨h1, h2, h3, h4⟩ := hp
  cases p with
  | nil => simp at h2
  | cons y' t =>
    simp at h2
    subst h2
    cases t with
    | nil => simp at h3; exact hxy h3.symm
    | cons c r =>
      rw [List.getLast?_cons_cons] at h3
      have hadj := h4 y' c (pair_infix_cons.2 (Or.inl ⟨rfl, rfl⟩))
      rcases hadj with hyc | hcy
      · exact no_descending ac hnd r y' c h4 hb hyc Relation.ReflTransGen.refl h3
      · cases r with
        | nil => simp at h3; subst h3; exact hna (Or.inl hcy)
        | cons d r =>
          exact (hb y' c d (triple_infix_cons.2 (Or.inl ⟨rfl, r, rfl⟩))).2
            (fun hc => ac.asymm _ _ hcy hc.1) hcy

theorem dsep_congr {Z' : α → Prop} (h : ∀ w, Z w ↔ Z' w) (x y : α) : DSep R x y Z ↔ DSep R x y Z' := by
  have : Z = Z' := funext (fun w => propext (h w))
  rw [this]

end Spec
end Cdmir
